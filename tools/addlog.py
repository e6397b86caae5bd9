"""Append the output of mutate.py to seeded/LOG.jsonl: addlog.py out.jsonl [tightened...]"""
import json, os, sys
log = os.path.join(os.path.dirname(os.path.abspath(__file__)), '..', 'seeded', 'LOG.jsonl')
with open(log, 'a') as f:
    for line in open(sys.argv[1]):
        e = json.loads(line)
        f.write(json.dumps({"definition": e["definition"], "edit": e["edit"], "breaks": e["breaks"],
            "failed_proofs": e["failed_proofs"], "failed_theorems": e["failed_theorems"],
            "tightened": e.get("tightened", [])}, ensure_ascii=False) + '\n')
