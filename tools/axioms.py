"""Writes AXIOMS.md: the axioms every theorem of the manifest rests on, as printed by Lean. Run after `lake build`."""
import json, os, re, subprocess
here = os.path.dirname(os.path.abspath(__file__))
root = os.path.join(here, "..")
claims = json.load(open(os.path.join(root, "MANIFEST.json")))["claims"]
names = [t for c in claims for t in c["theorems"]]
full = [t if t.startswith("Adhoc.") else "Adhoc." + t for t in names]
src = "import Verif\n" + "".join(f"#print axioms {t}\n" for t in full)
tmp = "/tmp/axioms_check.lean"
open(tmp, "w").write(src)
out = subprocess.run(["lake", "env", "lean", tmp], cwd=os.path.join(root, "lean"), capture_output=True, text=True).stdout
out = re.sub(r"\s+", " ", out)
got = dict(re.findall(r"'(\S+)' depends on axioms: \[([^\]]*)\]", out))
for t in re.findall(r"'(\S+)' does not depend on any axioms", out):
    got[t] = "none"
with open(os.path.join(root, "AXIOMS.md"), "w") as f:
    f.write("# Axioms per theorem\n\nOutput of `#print axioms` for every theorem of MANIFEST.json, written by tools/axioms.py.\n\n| theorem | axioms |\n|---|---|\n")
    for t in full:
        f.write(f"| {t} | {got[t]} |\n")
print(len(full), sorted(set(got.values())))
