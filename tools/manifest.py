"""Regenerates MANIFEST.json and lean/Verif/Axioms.lean from the claim list in tools/claims.txt.

Each claim is a line `Cnn status namespace: theorem theorem ... | note`.
"""
import json, os, re
root = os.path.join(os.path.dirname(__file__), "..")
claims, names = [], []
for line in open(os.path.join(root, "tools", "claims.txt")):
    line = line.strip()
    if not line or line.startswith("#"):
        continue
    head, note = line.split("|", 1)
    m = re.match(r"(C\d+) (\w+)\s*(.*)$", head.strip())
    prop, status, rest = m.groups()
    thms, ns = [], ""
    for tok in rest.split():
        if tok.endswith(":"):
            ns = tok[:-1]
        else:
            thms.append(ns + "." + tok)
    claims.append({"property": prop, "status": status, "theorems": thms, "note": note.strip()})
    names += [t for t in thms if t not in names]
json.dump({"claims": claims}, open(os.path.join(root, "MANIFEST.json"), "w"), indent=1)
with open(os.path.join(root, "lean", "Verif", "Axioms.lean"), "w") as f:
    mods = [l.split()[1] for l in open(os.path.join(root, "lean", "Verif.lean")) if l.startswith("import")]
    for m in mods:
        if m != "Verif.Axioms":
            f.write("import %s\n" % m)
    f.write("""import Lean.Util.CollectAxioms
import Lean.Elab.Command

/-!
# Axiom check

Generated by tools/manifest.py from the claim list. The build fails if a claimed theorem depends on
anything but the three standard axioms.
-/

open Lean Elab Command

/-- Fail unless the theorem exists and depends on standard axioms only. -/
elab "assert_std_axioms " n:ident : command => do
  let nm ← liftCoreM <| realizeGlobalConstNoOverload n
  let env ← getEnv
  let some (.thmInfo _) := env.find? nm | throwError "{nm} is not a theorem"
  let axs ← liftCoreM <| collectAxioms nm
  for a in axs do
    unless a == ``propext || a == ``Classical.choice || a == ``Quot.sound do
      throwError "{nm} depends on {a}"

""")
    for n in names:
        f.write("assert_std_axioms %s\n" % n)
ids = [json.loads(l)["id"] for l in open(os.path.join(root, "properties.jsonl"))]
print("claims", len(claims), "theorems", len(names), "missing", [i for i in ids if i not in {c["property"] for c in claims}])
