#!/bin/sh
# Print the axioms of every property theorem named in MANIFEST.json.
cd "$(dirname "$0")/../lean" || exit 1
f=$(mktemp --suffix=.lean)
python3 - > "$f" <<'PY'
import json
print("import Verif\nopen Zones.Props")
for c in json.load(open("../MANIFEST.json"))["claims"]:
    for t in c["theorems"]:
        print("#print axioms", t)
PY
lake env lean "$f" | sed 's/.*depends on axioms: //' | sort | uniq -c
rm -f "$f"
