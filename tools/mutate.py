#!/usr/bin/env python3
"""Seed a bug into a scratch copy of the model, rebuild, report which property theorems fail.

usage: mutate.py mutations.json
  mutations.json: list of {"file", "definition", "old", "new", "edit", "claim"}
Failing proofs are replaced by `sorry` one after the other until everything elaborates; a property
theorem fails if its proof then depends on `sorryAx`. With `"only": true` only the property modules of
the claims named in `claim` are built and checked (for definitions that everything depends on). Results are appended to seeded/LOG.jsonl.
"""
import json, os, re, subprocess, sys, shutil

SRC = "/verif/lean"
DST = "/tmp/mut/lean"
TOP = re.compile(r"^(theorem|lemma|def|example|end|section|variable|omit|namespace|@\[|/-|local|open|"
                 r"instance|structure|inductive|set_option|private|noncomputable|abbrev|universe|class|attribute|include|macro)")

SNAP = "/tmp/mut/snap"

def snapshot():
    """The last commit, so that files being edited do not disturb the run."""
    shutil.rmtree(SNAP, ignore_errors=True); os.makedirs(SNAP)
    subprocess.run(f"git -C /verif archive HEAD lean | tar -x -C {SNAP}", shell=True, check=True)

def sync():
    os.makedirs(DST, exist_ok=True)
    for name in os.listdir(SNAP + "/lean"):
        if name == ".lake": continue
        a, b = os.path.join(SNAP + "/lean", name), os.path.join(DST, name)
        if os.path.isdir(a):
            shutil.rmtree(b, ignore_errors=True); shutil.copytree(a, b)
        else:
            shutil.copy2(a, b)
    if not os.path.exists(DST + "/.lake"):
        subprocess.run(["cp", "-a", SRC + "/.lake", DST + "/.lake"], check=True)

def build(targets=()):
    r = subprocess.run(["lake", "build", *targets], cwd=DST, stdout=subprocess.PIPE,
                       stderr=subprocess.STDOUT, text=True)
    errs = re.findall(r"^error: (Verif[\w/]*\.lean):(\d+):\d+", r.stdout, re.M)
    return r.returncode, sorted(set((f, int(l)) for f, l in errs)), r.stdout

def decl_at(lines, ln):
    i = ln - 1
    while i >= 0 and not re.match(r"^(private )?(noncomputable )?(theorem|lemma|def|example|instance|abbrev|structure)", lines[i]):
        i -= 1
    j = i + 1
    while j < len(lines) and not TOP.match(lines[j]):
        j += 1
    return i, j

def sorry_out(f, ln):
    p = os.path.join(DST, f)
    lines = open(p).read().split("\n")
    i, j = decl_at(lines, ln)
    if i < 0:
        return None
    m = re.match(r"^(?:private )?(?:noncomputable )?(theorem|lemma|def|example|instance|abbrev|structure)\s*([^\s:({\[]*)", lines[i])
    kind, name = m.group(1), m.group(2)
    if kind not in ("theorem", "lemma", "example"):
        return None
    text = "\n".join(lines[i:j])
    depth = 0; pos = None
    for k, ch in enumerate(text):
        if ch in "([{⟨": depth += 1
        elif ch in ")]}⟩": depth -= 1
        elif depth == 0 and text.startswith(":=", k):
            line = text[:k].split("\n")[-1].strip()
            if line.startswith("let "): continue   # part of the statement
            pos = k; break
        elif depth == 0 and text.startswith("\n  | ", k):   # proof by pattern matching
            pos = k; break
    if pos is None or text[pos:].split() in ([":=", "by", "sorry"], [":=", "sorry"]):
        return None
    text = text[:pos] + ":= by\n  sorry\n"
    lines[i:j] = text.split("\n")
    open(p, "w").write("\n".join(lines))
    return (f, kind, name or "example")

def props():
    out = []
    d = DST + "/Verif/Props"
    for fn in sorted(os.listdir(d)):
        for m in re.finditer(r"^theorem (C\d\d\w*)", open(os.path.join(d, fn)).read(), re.M):
            out.append((fn[:-5], m.group(1)))
    return out

def main():
    muts = json.load(open(sys.argv[1]))
    snapshot()
    for mu in muts:
        sync()
        p = os.path.join(DST, "Verif", mu["file"])
        s = open(p).read()
        n = s.count(mu["old"])
        if n == 0:
            print("NOT FOUND", mu["definition"], mu["edit"]); continue
        if mu.get("nth") is not None:
            parts = s.split(mu["old"]); k = mu["nth"]
            s = mu["old"].join(parts[:k + 1]) + mu["new"] + mu["old"].join(parts[k + 1:])
        else:
            s = s.replace(mu["old"], mu["new"], 1)
        open(p, "w").write(s)
        direct = []
        bad = None
        ids = set(re.findall(r"C\d+", mu["claim"])) if mu.get("only") else None
        pr = [(m, t) for m, t in props() if ids is None or t.split("_")[0] in ids]
        targets = [] if ids is None else sorted(set("Verif.Props." + m for m, _ in pr))
        for _ in range(60):
            rc, errs, out = build(targets)
            if rc == 0: break
            done = False
            # bottom to top inside each file so that line numbers stay valid
            starts = set()
            for f, ln in errs:
                ls = open(os.path.join(DST, f)).read().split("\n")
                starts.add((f, decl_at(ls, min(ln, len(ls)))[0] + 1))
            for f, ln in sorted(starts, key=lambda t: (t[0], -t[1])):
                r = sorry_out(f, ln)
                if r:
                    done = True
                    direct.append(r)
            if not done:
                bad = out[-1500:]; break
        failed = []
        if bad is None and rc == 0:
            mods = sorted(set(m for m, _ in pr))
            chk = "".join(f"import Verif.Props.{m}\n" for m in mods) + "open Harold\n" + \
                  "".join(f"#print axioms {t}\n" for _, t in pr)
            open(DST + "/Chk.lean", "w").write(chk)
            r = subprocess.run(["lake", "env", "lean", "Chk.lean"], cwd=DST, stdout=subprocess.PIPE,
                               stderr=subprocess.STDOUT, text=True)
            seen = set(re.findall(r"'(?:Harold\.)?(\w+)' (?:depends on|does not depend on)", r.stdout))
            missing = [t for _, t in pr if t not in seen]
            if missing: bad = "axioms not printed: " + " ".join(missing)   # an unchecked theorem is not a survivor
            for m in re.finditer(r"'(?:Harold\.)?(\w+)' depends on axioms: \[([^\]]*)\]", r.stdout):
                if "sorryAx" in m.group(2): failed.append(m.group(1))
            os.remove(DST + "/Chk.lean")
        lem = sorted(set(n for _, k, n in direct if k != "example" and not re.match(r"C\d\d", n)))
        print("==", mu["definition"], "|", mu["edit"])
        print("   failed:", failed, "lemmas:", lem, "bad:" , bad)
        if bad is None:
            with open("/verif/seeded/LOG.jsonl", "a") as g:
                g.write(json.dumps({"definition": mu["definition"], "edit": mu["edit"],
                    "claim": mu["claim"], "failed": failed, "failed_lemmas": lem,
                    "tightened": mu.get("tightened", [])}, ensure_ascii=False) + "\n")
        sys.stdout.flush()

main()
