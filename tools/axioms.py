"""Print the axioms of every theorem listed in MANIFEST.json (run after `lake build`) and put them into DESIGN.md."""
import collections, json, os, re, subprocess, tempfile

root = os.path.dirname(os.path.dirname(os.path.abspath(__file__)))
claims = json.load(open(os.path.join(root, "MANIFEST.json")))["claims"]
names = sorted({t for c in claims for t in c["theorems"]})
with tempfile.NamedTemporaryFile("w", suffix=".lean", delete=False) as f:
    f.write("import Verif\n" + "".join(f"#print axioms {n}\n" for n in names))
out = subprocess.run(["lake", "env", "lean", f.name], cwd=os.path.join(root, "lean"), capture_output=True, text=True).stdout
os.unlink(f.name)
groups = collections.defaultdict(list)
for m in re.finditer(r"'(\S+)' (?:depends on axioms: \[([^\]]*)\]|does not depend on any axioms)", out):
    groups[", ".join(x.strip() for x in (m.group(2) or "none").split(","))].append(m.group(1))
assert sum(map(len, groups.values())) == len(names), out
lines = [f"- {k}: " + ", ".join(n.removeprefix("QuDiet.") for n in v) + "\n" for k, v in sorted(groups.items())]
print("".join(lines), end="")
design = os.path.join(root, "DESIGN.md")
text = open(design).read()
head, tail = text.split("## Axioms\n", 1)
tail = [l for l in tail.splitlines(True) if not l.startswith("- ")]
open(design, "w").write(head + "## Axioms\n" + "\n" + "".join(tail).strip("\n") + "".join(lines))
