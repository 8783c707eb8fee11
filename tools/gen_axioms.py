#!/usr/bin/env python3
"""Appends section 7 (axioms of each theorem) to DESIGN.md. Needs a finished 'lake build'."""
import subprocess, json, re, os, tempfile
LEAN = r'''import Verif
import Lean
open Lean Elab Command
run_cmd do
  let env ← getEnv
  let mut out := ""
  for (n, ci) in env.constants.map₁.toList do
    if let .thmInfo _ := ci then
      if (`Fab).isPrefixOf n && !n.isInternal then
        let ax ← liftCoreM (collectAxioms n)
        out := out ++ s!"{n} {" ".intercalate (ax.toList.map toString)}\n"
  IO.FS.writeFile "OUT" out
'''
d = tempfile.mkdtemp()
open(d+'/A.lean','w').write(LEAN.replace('OUT', d+'/out'))
subprocess.run(['lake','env','lean',d+'/A.lean'],cwd='/verif/lean',check=True,stdout=subprocess.DEVNULL)
ax = {}
for l in open(d+'/out'):
    w = l.split(); ax.setdefault(w[0].split('.')[-1],[]).append((w[0],sorted(w[1:]))); 
    ax.setdefault('.'.join(w[0].split('.')[-2:]),[]).append((w[0],sorted(w[1:])))
M = json.load(open('/verif/MANIFEST.json'))['claims']
allax = {a for v in ax.values() for _,x in v for a in x}
assert allax <= {'propext','Classical.choice','Quot.sound'}, allax
short = {'propext':'p','Classical.choice':'c','Quot.sound':'q'}
out = ["## 7. Axioms of each theorem\n",
 "Generated by `tools/gen_axioms.py` from Lean's own dependency analysis (`collectAxioms`) of the theorems of MANIFEST.json:",
 "p = `propext`, c = `Classical.choice`, q = `Quot.sound`, – = none. No other axiom occurs in any theorem of the project, named here or not.\n",
 "| property | theorems |","|---|---|"]
for c in M:
    ts=[]
    for t in c['theorems']:
        e = ax[t]
        ts.append(f"`{t}` ({''.join(short[a] for a in ['propext','Classical.choice','Quot.sound'] if any(a in x for _,x in e)) or '–'})")
    out.append(f"| {c['property']} | {', '.join(ts)} |")
D='/verif/DESIGN.md'
s=open(D).read().split('## 7. Axioms')[0].rstrip()+'\n\n'
open(D,'w').write(s+'\n'.join(out)+'\n')
