#!/usr/bin/env python3
"""Write lean/Verif/Axioms.lean: the axioms of every theorem named in MANIFEST.json.

Run after `lake build` of the other modules.  The output is checked by `#guard_msgs`
whenever Axioms.lean is compiled."""
import json, os, re, subprocess
root = os.path.dirname(os.path.dirname(os.path.abspath(__file__)))
lean = os.path.join(root, "lean")
names = []
for c in json.load(open(os.path.join(root, "MANIFEST.json")))["claims"]:
    for t in c["theorems"]:
        if t not in names:
            names.append(t)
mods = [l.split()[1] for l in open(os.path.join(lean, "Verif.lean"))
        if l.startswith("import ") and l.split()[1] != "Verif.Axioms"]
head = "".join(f"import {m}\n" for m in mods)
tmp = os.path.join(lean, "AxiomsTmp.lean")
open(tmp, "w").write(head + "".join(f"#print axioms {n}\n" for n in names))
out = subprocess.run(["lake", "env", "lean", tmp], cwd=lean, capture_output=True, text=True).stdout
os.remove(tmp)
msgs = re.findall(r"'([^']+(?:'[^']*)*?)' (depends on axioms: \[[^\]]*\]|does not depend on any axioms)", out)
got = dict(msgs)
missing = [n for n in names if n not in got]
assert not missing, missing
with open(os.path.join(lean, "Verif", "Axioms.lean"), "w") as f:
    f.write(head)
    f.write("\n/-!\n# Axioms\n\nThe axioms every theorem named in `MANIFEST.json` depends on.  Generated by\n"
            "`tools/gen_axioms.py`; `#guard_msgs` makes the build fail if a list changes.\n-/\n")
    for n in names:
        f.write(f"\n/-- info: '{n}' {' '.join(got[n].split())} -/\n#guard_msgs (whitespace := lax) in\n#print axioms {n}\n")
