#!/usr/bin/env python3
"""Write the axioms of every theorem of MANIFEST.json into the appendix of DESIGN.md.

Needs a built lean/ directory; run after gen_manifest.py.
"""
import json, pathlib, re, subprocess, tempfile
root = pathlib.Path(__file__).resolve().parent.parent
claims = json.loads((root / "MANIFEST.json").read_text())["claims"]
names = [t for c in claims for t in c["theorems"]]
with tempfile.NamedTemporaryFile("w", suffix=".lean", delete=False) as f:
    f.write("import Verif\n" + "".join(f"#print axioms {n}\n" for n in names))
txt = subprocess.run(["lake", "env", "lean", f.name], cwd=root / "lean", capture_output=True, text=True).stdout
ax = {}
for m in re.finditer(r"'([^']+(?:'[^' ]*)*)' (does not depend on any axioms|depends on axioms: \[([^\]]*)\])", txt):
    ax[m.group(1)] = tuple(sorted(x.strip() for x in (m.group(3) or "").split(",") if x.strip()))
missing = [n for n in names if n not in ax]
assert not missing, missing
bad = {n: a for n, a in ax.items() if not set(a) <= {"propext", "Classical.choice", "Quot.sound"}}
assert not bad, bad
code = {"propext": "P", "Classical.choice": "C", "Quot.sound": "Q"}
out = []
for c in claims:
    groups = {}
    for t in c["theorems"]:
        groups.setdefault("".join(sorted(code[a] for a in ax[t])) or "none", []).append(t.split(".")[-1])
    out.append(f"* **{c['property']}** – " + "; ".join(f"{k}: " + ", ".join(f"`{t}`" for t in v) for k, v in sorted(groups.items())))
p = root / "DESIGN.md"
s = p.read_text()
a, b = "<!-- axioms begin -->\n", "<!-- axioms end -->"
s = s[:s.index(a) + len(a)] + "\n".join(out) + "\n" + s[s.index(b):]
p.write_text(s)
print(len(names), "theorems,", len(set(ax.values())), "axiom sets")
