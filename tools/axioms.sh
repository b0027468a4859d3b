#!/bin/sh
# Writes AXIOMS.md: the axioms of every theorem named in MANIFEST.json.  Run after 'lake build'.
cd "$(dirname "$0")/.." || exit 1
tmp=$(mktemp -d)
python3 - "$tmp/Ax.lean" <<'P'
import json, sys
names = [t for c in json.load(open("MANIFEST.json"))["claims"] for t in c["theorems"]]
seen = list(dict.fromkeys(names))
open(sys.argv[1], "w").write("import Verif\n" + "".join(f"#print axioms {n}\n" for n in seen))
P
(cd lean && lake env lean "$tmp/Ax.lean") > "$tmp/out"
python3 - "$tmp/out" <<'P'
import re, sys
text = open(sys.argv[1]).read()
rows = re.findall(r"'([^\n]+?)' (depends on axioms: \[([^\]]*)\]|does not depend on any axioms)", text)
with open("AXIOMS.md", "w") as f:
    f.write("# Axioms of the theorems named in MANIFEST.json\n\n| theorem | axioms |\n|---|---|\n")
    for n, _, ax in rows:
        f.write(f"| `{n}` | {', '.join(a.strip() for a in ax.split(',')) if ax else 'none'} |\n")
print(len(rows), sorted({a.strip() for r in rows for a in r[2].split(",") if a.strip()}))
P
rm -rf "$tmp"
