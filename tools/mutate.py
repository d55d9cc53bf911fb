"""Applies seeded wrong edits to a scratch copy of the Lean project and records which theorems fail.

usage: mutate.py SCRATCH_LEAN_DIR SEEDS.json [first [last]]

Every seed is {"id", "file", "definition", "old", "new", "claim", "targets"}.  One JSON line per
seed is appended to seeded/LOG.jsonl.
"""
import json, re, subprocess, sys, pathlib, shutil

ROOT = pathlib.Path(__file__).resolve().parent.parent
SRC = ROOT / "lean"
scratch = pathlib.Path(sys.argv[1])
seeds = json.load(open(sys.argv[2]))
first = int(sys.argv[3]) if len(sys.argv) > 3 else 0
last = int(sys.argv[4]) if len(sys.argv) > 4 else len(seeds)


def sync():
    for f in SRC.rglob("*.lean"):
        if ".lake" in f.parts:
            continue
        g = scratch / f.relative_to(SRC)
        g.parent.mkdir(parents=True, exist_ok=True)
        if not g.exists() or g.read_text() != f.read_text():
            shutil.copyfile(f, g)


def build():
    return subprocess.run(["lake", "build"], cwd=scratch, capture_output=True, text=True)


def enclosing(path, line):
    name = None
    for i, l in enumerate((scratch / path).read_text().splitlines(), 1):
        if i > line:
            break
        m = re.match(r"\s*(?:@\[[^\]]*\]\s*)?(?:private\s+|protected\s+)?(theorem|lemma|def|instance|example)\s*([^\s:({\[]*)", l)
        if m:
            name = m.group(2) or f"example@{i}"
    return name


def where(theorem):
    short = theorem.removeprefix("HG.")
    for f in (scratch / "Verif").rglob("*.lean"):
        if re.search(r"theorem\s+" + re.escape(short) + r"\b", f.read_text()):
            return "Verif." + ".".join(f.relative_to(scratch / "Verif").with_suffix("").parts)


sync()
for s in seeds[first:last]:
    path = scratch / "Verif" / s["file"]
    orig = path.read_text()
    assert orig.count(s["old"]) == 1, (s["id"], orig.count(s["old"]))
    path.write_text(orig.replace(s["old"], s["new"]))
    r = build()
    out = r.stdout + r.stderr
    errs = {}
    for m in re.finditer(r"^error: (Verif/\S+\.lean):(\d+):\d+", out, re.M):
        n = enclosing(m.group(1), int(m.group(2)))
        errs.setdefault(m.group(1), [])
        if n not in errs[m.group(1)]:
            errs[m.group(1)].append(n)
    failed = [n for v in errs.values() for n in v]
    built = set()
    status = {}
    for t in s["targets"]:
        if t in failed or t.removeprefix("HG.") in failed:
            status[t] = "fails"
        else:
            mod = where(t)
            olean = None
            # a module that was not rebuilt successfully leaves its trace stale: ask lake
            q = subprocess.run(["lake", "build", "--no-build", mod], cwd=scratch,
                               capture_output=True, text=True)
            if q.returncode == 0:
                status[t] = "STILL PROVES"
            elif any(mod == "Verif." + e.removeprefix("Verif/").removesuffix(".lean").replace("/", ".")
                     for e in errs):
                status[t] = "same file fails"
            else:
                status[t] = "a lemma it needs fails"
    path.write_text(orig)
    rec = {"id": s["id"], "definition_edited": s["definition"], "file": s["file"],
           "edit": {"old": s["old"], "new": s["new"]}, "claim_broken": s["claim"],
           "targets": status, "theorems_failed": failed,
           "theorems_tightened": s.get("tightened", []), "note": s.get("note", "")}
    with open(ROOT / "seeded" / "LOG.jsonl", "a") as log:
        log.write(json.dumps(rec) + "\n")
    print(s["id"], "caught" if r.returncode else "NOT CAUGHT", status, failed[:6], flush=True)
