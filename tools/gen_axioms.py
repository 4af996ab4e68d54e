"""Rewrites the axiom table of DESIGN.md (between the AXIOMS markers) from `#print axioms` of every theorem in MANIFEST.json."""
import json, os, re, subprocess, tempfile
here = os.path.dirname(os.path.dirname(os.path.abspath(__file__)))
M = json.load(open(os.path.join(here, "MANIFEST.json")))["claims"]
names = [t for c in M for t in c["theorems"]]
with tempfile.NamedTemporaryFile("w", suffix=".lean", delete=False) as f:
    f.write("import Verif\n" + "".join(f"#print axioms {n}\n" for n in names))
out = subprocess.run(["lake", "env", "lean", f.name], cwd=os.path.join(here, "lean"), capture_output=True, text=True).stdout
os.unlink(f.name)
out = re.sub(r"\n\s+", " ", out)
ax = {}
for m in re.finditer(r"'([^']+)' (does not depend on any axioms|depends on axioms: \[([^\]]*)\])", out):
    ax[m.group(1)] = m.group(3) or ""
groups = {}
for n in names:
    assert n in ax, n
    groups.setdefault(", ".join(sorted(x.strip() for x in ax[n].split(",") if x.strip())) or "(none)", []).append(n[3:])
txt = "<!-- AXIOMS -->\n" + "".join(f"* **{k}** ({len(v)} theorems): {', '.join(v)}\n" for k, v in sorted(groups.items())) + "<!-- /AXIOMS -->"
p = os.path.join(here, "DESIGN.md")
s = open(p).read()
s = re.sub(r"<!-- AXIOMS -->.*<!-- /AXIOMS -->", lambda _: txt, s, flags=re.S)
open(p, "w").write(s)
print({k: len(v) for k, v in groups.items()})
