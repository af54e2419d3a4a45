"""Mutation testing of the theorems.

usage: mutate.py mutants.json

Each mutant is an object with keys file (module file name), definition, old, new, edit, breaks and
optionally tightened. The edit is applied to a scratch copy of the Lean project outside the repository,
the project is rebuilt, and a line is appended to seeded/LOG.jsonl naming the declarations that stopped
compiling. Property theorems in modules that could not be built because they import a failed one are
listed as blocked.
"""
import json, os, re, shutil, subprocess, sys

SRC = "/verif/lean"
DST = "/tmp/mut/lean"
LOG = "/verif/seeded/LOG.jsonl"


def sync():
    os.makedirs(DST, exist_ok=True)
    subprocess.run(["rsync", "-a", "--delete", SRC + "/", DST + "/"], check=True) if shutil.which("rsync") else \
        (shutil.rmtree(DST), shutil.copytree(SRC, DST, symlinks=True))


def enclosing(path, line):
    name = None
    ns = []
    for n, l in enumerate(open(path), 1):
        if n > line:
            break
        m = re.match(r"\s*(?:@\[[^\]]*\]\s*)?(?:noncomputable )?(?:private )?(theorem|def|lemma|example|structure|instance)\s*(\S*)", l)
        if m:
            name = m.group(2) if m.group(1) != "example" else "example"
    return name


def run(m):
    path = f"{DST}/Verif/{m['file']}"
    orig = open(path).read()
    assert orig.count(m["old"]) == 1, (m["definition"], orig.count(m["old"]))
    open(path, "w").write(orig.replace(m["old"], m["new"]))
    try:
        out = subprocess.run(["lake", "build", "Verif"], cwd=DST, capture_output=True, text=True).stdout
    finally:
        open(path, "w").write(orig)
    failed = []
    for f, l in re.findall(r"error: (Verif/\w+\.lean):(\d+):\d+", out):
        name = f"{f[6:-5]}.{enclosing(DST + '/' + f, int(l))}"
        if name not in failed:
            failed.append(name)
    badmods = set(x.split(".")[0] for x in failed)
    blocked = sorted(badmods)
    return failed, blocked, out


def main():
    sync()
    for m in json.load(open(sys.argv[1])):
        failed, blocked, out = run(m)
        rec = {"definition": m["definition"], "edit": m["edit"], "breaks": m["breaks"],
               "theorems_failed": failed, "theorems_tightened": m.get("tightened", [])}
        ok = bool(failed)
        print(("KILLED  " if ok else "SURVIVED"), m["definition"], "|", m["edit"], "|", failed[:6])
        if ok or m.get("log_survivor"):
            with open(LOG, "a") as fh:
                fh.write(json.dumps(rec) + "\n")


main()
