"""Update one claim in MANIFEST.json: claims.py C01 proved thm1,thm2 "note" """
import json, os, sys
path = os.path.join(os.path.dirname(__file__), '..', 'MANIFEST.json')
data = json.load(open(path)) if os.path.exists(path) else {"claims": []}
def put(pid, status, thms, note):
    data["claims"] = [c for c in data["claims"] if c["property"] != pid]
    data["claims"].append({"property": pid, "status": status, "theorems": thms, "note": note})
    data["claims"].sort(key=lambda c: c["property"])
if __name__ == '__main__':
    pid, status, thms, note = sys.argv[1:5]
    put(pid, status, [t for t in thms.split(',') if t], note)
    json.dump(data, open(path, 'w'), indent=1, ensure_ascii=False)
