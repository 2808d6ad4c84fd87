#!/usr/bin/env python3
"""Writes AXIOMS.md: the axioms of every theorem in MANIFEST.json, as the kernel reports them.  Run after `lake build` in lean/."""
import json, os, re, subprocess, tempfile
V = os.path.dirname(os.path.dirname(os.path.abspath(__file__)))
T = [t for c in json.load(open(f"{V}/MANIFEST.json"))["claims"] for t in c["theorems"]]
with tempfile.NamedTemporaryFile("w", suffix=".lean", delete=False) as f:
    f.write("import Verif\n" + "".join(f"#print axioms {t}\n" for t in T))
out = subprocess.run(["lake", "env", "lean", f.name], cwd=f"{V}/lean", capture_output=True, text=True).stdout
os.unlink(f.name)
out = re.sub(r"\s+", " ", out)
G = {}
for t in T:
    m = re.search(r"'" + re.escape(t) + r"' (?:depends on axioms: \[([^\]]*)\]|does not depend on any axioms)", out)
    G.setdefault(m.group(1) or "none", []).append(t)
with open(f"{V}/AXIOMS.md", "w") as f:
    f.write("# Axioms of the theorems\n\nGenerated by `tools/axioms.py` from what `#print axioms` reports for each theorem in `MANIFEST.json`.\n"
            "`propext`, `Classical.choice` and `Quot.sound` are the three axioms of Lean's own library; there are no others.\n")
    for a in sorted(G, key=lambda a: -len(G[a])):
        f.write(f"\n## {a} ({len(G[a])} theorems)\n\n" + "\n".join(f"* `{t}`" for t in G[a]) + "\n")
print({a: len(l) for a, l in G.items()})
