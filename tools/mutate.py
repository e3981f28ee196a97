"""Random mutants of the model: python3 tools/mutate.py SEED COUNT OUT [FILE ...]  (pristine built copy of lean in /tmp/mut0, scratch copy in /tmp/mut).

Every mutant changes one token of one definition under Verif/Model.  A mutant that does not compile is skipped; one for which
the whole project still builds has survived and is printed with "survived"."""
import json, os, random, re, shutil, signal, subprocess, sys

ROOT = "/tmp/mut"
VER = "/tmp/mut0"
OPS = [(" < ", " ≤ "), (" ≤ ", " < "), (" > ", " ≥ "), (" ≥ ", " > "), (" + 1", ""), (" - 1", ""), (" + ", " - "), (" - ", " + "),
       (" ∧ ", " ∨ "), (" ∨ ", " ∧ "), (" = ", " ≠ "), (" ≠ ", " = "), (" * ", " + "), (".reverse", ""), ("true", "false"),
       ("false", "true"), (".valueError", ".typeError"), (".typeError", ".valueError"), (".exception", ".valueError"),
       (".indexError", ".keyError"), (".keyError", ".indexError"), ("min ", "max "), ("max ", "min "), (".take ", ".drop "),
       (".drop ", ".take "), (".1", ".2"), (".2", ".1"), (" 0", " 1"), (" 1", " 0"), (" 1", " 2"), ("2 ^ ", "3 ^ "),
       ("if ", "if ¬ "), ("none", "some 0"), (" ∉ ", " ∈ "), (" ∈ ", " ∉ "), ("&&&", "|||"), (">>>", "<<<"), ("<<<", ">>>"),
       (".length", ".length + 1"), (".length", ".length - 1"), ("List.range (", "List.range' 1 ("), ("Function.update ", "(fun f _ _ => f) "),
       (".head", ".getLast"), (".filter ", ".takeWhile "), (".any ", ".all "), (".all ", ".any "), (".find? ", ".reverse.find? "),
       (".modEq", ".eq"), ("% ", "/ "), ("/ ", "% "), ("rest", "[]")]
# removed altogether
CUTS = [r" \+\+ \[[^\[\]]*\]", r" ∧ [^∧∨()\n]+?(?= then)", r" ∨ [^∧∨()\n]+?(?= then)"]

def sites():
    out = []
    d = os.path.join(VER, "Verif/Model")
    for f in sorted(os.listdir(d)):
        text = open(os.path.join(d, f)).read()
        # blank comments, keeping positions
        def blank(m):
            return re.sub(r"[^\n]", " ", m.group(0))
        t = re.sub(r"/-.*?-/", blank, text, flags=re.S)
        t = re.sub(r"--[^\n]*", blank, t)
        pos = [(m.start(), m.group(1)) for m in re.finditer(r"^(?:@\[[^\]]*\] )?(?:noncomputable |private )*(?:def|abbrev|inductive|structure|instance)\s+(\S+)", t, re.M)]
        for k, (p, name) in enumerate(pos):
            end = pos[k + 1][0] if k + 1 < len(pos) else len(t)
            body = t.find(":=", p, end)
            if body < 0:
                body = t.find("\n", p, end)
            if body < 0 or re.match(r"(?:@\[[^\]]*\] )?(inductive|structure)", t[p:p+60]):
                continue
            for a, b in OPS:
                i = t.find(a, body + 2, end)
                while i >= 0:
                    out.append((f, name, i, a, b))
                    i = t.find(a, i + 1, end)
            for c in CUTS:
                for m in re.finditer(c, t[body + 2:end]):
                    out.append((f, name, body + 2 + m.start(), m.group(0), ""))
    return out

def run(cmd):
    """Build; stop at the first error."""
    p = subprocess.Popen(cmd, cwd=ROOT, stdout=subprocess.PIPE, stderr=subprocess.STDOUT, text=True, start_new_session=True)
    bad = None
    for line in p.stdout:
        m = re.match(r"error: (Verif/\S+\.lean):(\d+)", line)
        if m:
            bad = m.group(1) + ":" + m.group(2)
            try:
                os.killpg(p.pid, signal.SIGKILL)
            except ProcessLookupError:
                pass
            break
    p.wait()
    if bad is None and p.returncode != 0:
        bad = "?"
    return bad

def main():
    random.seed(int(sys.argv[1]))
    all_sites = sites()
    by = {}
    for s in all_sites:
        by.setdefault((s[0], s[1]), []).append(s)
    keys = [k for k in by if len(sys.argv) < 5 or k[0] in sys.argv[4:]]
    random.shuffle(keys)
    done = 0
    i = 0
    while done < int(sys.argv[2]):
        f, name, pos, a, b = random.choice(by[keys[i % len(keys)]])
        i += 1
        path = os.path.join("Verif/Model", f)
        src = open(os.path.join(VER, path)).read()
        new = src[:pos] + b + src[pos + len(a):]
        ls, le = src.rfind("\n", 0, pos) + 1, src.find("\n", pos)
        le2 = new.find("\n", pos)
        open(os.path.join(ROOT, path), "w").write(new)
        r = {"file": f, "def": name, "old": src[ls:le].strip(), "new": new[ls:le2].strip()}
        mod = "Verif.Model." + f[:-5]
        bad = run(["lake", "build", mod])
        if bad:
            r["result"] = "does not compile"
        else:
            bad = run(["lake", "build"])
            r["result"] = "caught " + bad if bad else "SURVIVED"
            done += 1
        open(os.path.join(ROOT, path), "w").write(src)
        shutil.copystat(os.path.join(VER, path), os.path.join(ROOT, path))
        if r["result"] != "does not compile":
            shutil.rmtree(os.path.join(ROOT, ".lake/build"))
        subprocess.run(["cp", "-a", os.path.join(VER, ".lake/build"), os.path.join(ROOT, ".lake/")])
        with open(sys.argv[3], "a") as o:
            o.write(json.dumps(r) + "\n")

if __name__ == "__main__":
    main()
