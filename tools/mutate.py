#!/usr/bin/env python3
"""Mutation testing. Usage: mutate.py SPEC.py
SPEC.py defines MUTS = [dict(file=, old=, new=, definition=, edit=, claim=)] (or edits=[(file, old, new), ...]).
Works in a scratch copy /tmp/mut of /verif/lean; prints which declarations fail, and which modules are then not built."""
import subprocess, sys, os, re, json, shutil, importlib.util
spec = importlib.util.spec_from_file_location("spec", sys.argv[1]); m = importlib.util.module_from_spec(spec); spec.loader.exec_module(m)
only = set(sys.argv[2:])
M = "/tmp/mut"
subprocess.run("rm -rf %s; cp -a /verif/lean %s" % (M, M), shell=True, check=True)
def decl(path, line):
    name = "?"
    for i, l in enumerate(open(path).read().split("\n")[:line], 1):
        r = re.match(r"\s*(?:@\[[^\]]*\]\s*)?(?:private |protected |noncomputable )*(theorem|lemma|def|example|instance|abbrev|inductive|structure)\s*(\S+)?", l)
        if r: name = (r.group(2) or "") if r.group(1) != "example" else "example@%d" % i
    return name
for k, mu in enumerate(m.MUTS):
    if only and str(k) not in only: continue
    edits = mu.get("edits") or [(mu["file"], mu["old"], mu["new"])]
    saved = {}
    ok = True
    for f, old, new in edits:
        p = os.path.join(M, f)
        s = open(p).read()
        saved.setdefault(p, s)
        if s.count(old) < 1: print("NOT FOUND", f, old); ok = False; break
        open(p, "w").write(s.replace(old, new, 1))
    if ok:
        r = subprocess.run(["lake", "build"] + mu.get("targets", []), cwd=M, capture_output=True, text=True)
        out = r.stdout + r.stderr
        fails = {}
        for x in re.finditer(r"error: (Verif[^:\s]*\.lean):(\d+):", out):
            fails.setdefault(x.group(1), [])
            d = decl(os.path.join(M, x.group(1)), int(x.group(2)))
            if d not in fails[x.group(1)]: fails[x.group(1)].append(d)
        print("%d. %s: %s\n   claim: %s\n   %s" % (k, mu["definition"], mu["edit"], mu["claim"], json.dumps(fails) if fails else ("BUILDS" if r.returncode == 0 else out[-500:])), flush=True)
    for p, s in saved.items(): open(p, "w").write(s)
