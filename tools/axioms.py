"""Writes AXIOMS.md: the axioms of every theorem named in MANIFEST.json, as printed by Lean (run after `lake build`)."""
import json, subprocess, pathlib, re, tempfile, collections
root = pathlib.Path(__file__).resolve().parent.parent
names = [t for c in json.load(open(root / 'MANIFEST.json'))['claims'] for t in c['theorems']]
src = "import Verif\n" + "".join(f"#print axioms {n}\n" for n in names)
with tempfile.NamedTemporaryFile('w', suffix='.lean', delete=False) as f:
    f.write(src)
out = subprocess.run(['lake', 'env', 'lean', f.name], cwd=root / 'lean', capture_output=True, text=True).stdout
res = {}
for m in re.finditer(r"'([^']+)' (?:depends on axioms: \[([^\]]*)\]|does not depend on any axioms)", out):
    res[m.group(1)] = tuple(sorted(a.strip() for a in (m.group(2) or '').split(',') if a.strip()))
missing = [n for n in names if n not in res]
assert not missing, missing
groups = collections.defaultdict(list)
for n in names:
    groups[res[n]].append(n)
with open(root / 'AXIOMS.md', 'w') as f:
    f.write("# Axioms of the theorems in MANIFEST.json\n\nGenerated by `tools/axioms.py` from Lean's `#print axioms`.\n")
    for k in sorted(groups):
        f.write(f"\n## {', '.join(k) if k else 'no axioms'} ({len(groups[k])} theorems)\n\n")
        for n in groups[k]:
            f.write(f"* `{n}`\n")
print({k: len(v) for k, v in groups.items()})
