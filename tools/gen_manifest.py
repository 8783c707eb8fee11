#!/usr/bin/env python3
"""Writes /verif/MANIFEST.json from tools/claims.py style entries below."""
import json
exec(open('/verif/tools/claims.py').read())
json.dump({"claims":[dict(property=k,status=v[0],theorems=v[1],note=v[2]) for k,v in sorted(CLAIMS.items())]}, open('/verif/MANIFEST.json','w'), indent=1, ensure_ascii=False)
