"""Rewrites the table at the end of DESIGN.md from properties.jsonl and MANIFEST.json."""
import json, os
root = os.path.join(os.path.dirname(os.path.abspath(__file__)), "..")
props = [json.loads(l) for l in open(os.path.join(root, "properties.jsonl"))]
claims = {c["property"]: c for c in json.load(open(os.path.join(root, "MANIFEST.json")))["claims"]}
path = os.path.join(root, "DESIGN.md")
text = open(path).read()
mark = "## Results per property\n"
text = text[: text.index(mark) + len(mark)]
rows = ["", "| id | property | status | theorems | what is proved, what is not |", "|---|---|---|---|---|"]
for p in props:
    c = claims[p["id"]]
    rows.append("| %s | %s | %s | %s | %s |" % (p["id"], p["title"], c["status"], ", ".join(t.replace("Adhoc.", "") for t in c["theorems"]), c["note"] or "as stated"))
open(path, "w").write(text + "\n".join(rows) + "\n")
