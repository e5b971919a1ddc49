"""Writes AXIOMS.txt: the axioms every manifest theorem depends on (Lean's collectAxioms). Needs a built project."""
import json, os, subprocess, tempfile
root = os.path.dirname(os.path.dirname(os.path.abspath(__file__)))
names = [t for c in json.load(open(os.path.join(root, "MANIFEST.json")))["claims"] for t in c["theorems"]]
names = list(dict.fromkeys(names))
src = "import Verif\n" + "".join(f"#print axioms {n}\n" for n in names)
with tempfile.NamedTemporaryFile("w", suffix=".lean", delete=False) as f:
    f.write(src)
out = subprocess.run(["lake", "env", "lean", f.name], cwd=os.path.join(root, "lean"), capture_output=True, text=True).stdout
import re
res = {}
for m in re.finditer(r"'([^']+)' (does not depend on any axioms|depends on axioms: \[([^\]]*)\])", out):
    res[m.group(1)] = m.group(3).replace("\n", " ").replace("  ", " ") if m.group(3) else "none"
with open(os.path.join(root, "AXIOMS.txt"), "w") as g:
    for n in names:
        g.write(f"{n}: {res.get(n, '???')}\n")
from collections import Counter
print(Counter(res.get(n, "???") for n in names))
