"""Append the results of tools/seed.py (JSON lines on stdin) to seeded/LOG.jsonl: python3 tools/logseeds.py SEEDS < RESULTS."""
import json, re, sys
seeds = {}
for l in open(sys.argv[1]):
    if l.strip():
        e = json.loads(l); seeds[e["id"]] = e
for l in sys.stdin:
    if not l.startswith("{"):
        continue
    r = json.loads(l); e = seeds[r["id"]]
    src = open("/verif/lean/" + e["file"]).read()
    pos = src.index(e["old"])
    name = re.findall(r"(?:def|structure|inductive)\s+(\S+)", src[:pos] + e["old"])[-1] if "def " in e["old"].split("\n")[0] else re.findall(r"(?:def|structure|inductive)\s+(\S+)", src[:pos])[-1]
    o = {"id": r["id"], "definition": "QIP.%s (%s)" % (name, e["file"]), "edit": e["old"].strip() + "  =>  " + e["new"].strip(),
         "claim_broken": e["claim"], "theorems_failed": r["failed"], "theorems_tightened": e.get("tightened", [])}
    if "note" in e: o["note"] = e["note"]
    open("/verif/seeded/LOG.jsonl", "a").write(json.dumps(o, ensure_ascii=False) + "\n")
