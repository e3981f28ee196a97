"""Seeded-bug runs: python3 tools/seed.py FILE [id ...]  (FILE: JSON lines with id, file, old, new, claim).

Works on a scratch copy of /verif/lean in /tmp/seed.  For every entry the model is edited, the project rebuilt and the
declarations with errors (and the property modules that could not be built because of them) are printed as JSON."""
import json, re, subprocess, sys, os

ROOT = "/tmp/seed"
VER = "/verif/lean"

def decl_at(path, line):
    name = None
    for i, l in enumerate(open(path), 1):
        m = re.match(r"(?:private |protected |noncomputable )*(?:theorem|lemma|def|structure|instance|example)\s*(\S*)", l)
        if m:
            name = m.group(1) or "example"
            if l.startswith("example"):
                name = "example@%d" % i
        if i >= line:
            return name
    return name

def build():
    r = subprocess.run(["lake", "build"], cwd=ROOT, capture_output=True, text=True)
    out = r.stdout + r.stderr
    decls = []
    mods = []
    for m in re.finditer(r"^error: (Verif/\S+\.lean):(\d+):\d+", out, re.M):
        d = m.group(1).replace("Verif/", "").replace(".lean", "") + ":" + str(decl_at(os.path.join(ROOT, m.group(1)), int(m.group(2))))
        if d not in decls:
            decls.append(d)
    return r.returncode, decls

def main():
    want = set(sys.argv[2:])
    for line in open(sys.argv[1]):
        line = line.strip()
        if not line:
            continue
        e = json.loads(line)
        if want and e["id"] not in want:
            continue
        src = open(os.path.join(VER, e["file"])).read()
        if src.count(e["old"]) < 1:
            print(json.dumps({"id": e["id"], "problem": "pattern not found"}), flush=True)
            continue
        p = os.path.join(ROOT, e["file"])
        open(p, "w").write(src.replace(e["old"], e["new"]) if e.get("all") else src.replace(e["old"], e["new"], 1))
        rc, decls = build()
        open(p, "w").write(src)
        print(json.dumps({"id": e["id"], "claim": e["claim"], "failed": decls, "caught": rc != 0}), flush=True)

main()
