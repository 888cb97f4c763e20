#!/usr/bin/env python3
"""Seeds bugs into a scratch copy of the model and records which theorems stop proving.

usage: mutate.py FILE.json   (list of {file, definition, old, new, claim, [tightened]})
Appends one line per attempt to /verif/seeded/LOG.jsonl."""
import glob, json, os, re, shutil, signal, subprocess, sys, threading
ROOT = os.path.dirname(os.path.dirname(os.path.abspath(__file__)))
SCR = "/tmp/mut"
muts = json.load(open(sys.argv[1]))
if "--dry" in sys.argv:
    # only say which edits do not apply
    for m in muts:
        c = open(os.path.join(ROOT, "lean", m["file"])).read().count(m["old"])
        if c != 1 and not m.get("all"): print(c, m["definition"], repr(m["old"]))
    sys.exit()
subprocess.run(["mkdir", "-p", SCR]); subprocess.run(["rsync", "-a", "--delete", ROOT + "/lean/", SCR + "/lean/"]) if shutil.which("rsync") else (shutil.rmtree(SCR + "/lean", ignore_errors=True), subprocess.run(["cp", "-a", ROOT + "/lean", SCR + "/lean"]))
def strip_examples(path):
    # examples that become false can exhaust the memory; only the theorems count
    L, out, skip = open(path).read().split("\n"), [], False
    for l in L:
        if l.startswith("example"):
            skip = True
            i = len(out) - 1
            if i >= 0 and out[i].endswith("-/"):
                while not out[i].startswith("/--"): i -= 1
                del out[i:]
        elif l and not l[0].isspace(): skip = False
        if not skip: out.append(l)
    open(path, "w").write("\n".join(out))
for d in ("Commands", "Text", "App", "Print", "Rules", "Rulework", "Lists", "Typing", "Answer", "Meaning", "Question", "Status", "Ruled", "Sales", "Complaint", "Excerpt", "Crash", "Periods", "Halfway", "Naming", "Rates", "Args", "History", "Colour", "Trouble", "Stderr", "Accepted", "Notes", "Exact", "Appended", "Outer", "Hangs", "Parts", "Seeds", "Depths", "Scale", "Merge", "Coins", "Course", "Sum", "Extract", "Turn", "Split", "Terse"):
    q = SCR + "/lean/Verif/Props/%s.lean" % d
    if os.path.exists(q): strip_examples(q)
def enclosing(path, line):
    L = open(path).read().split("\n")
    for i in range(min(line, len(L)) - 1, -1, -1):
        m = re.match(r"(?:private |protected |noncomputable )*(theorem|def|instance|structure|inductive|example)\s*([^\s:({\[]*)", L[i])
        if m: return m.group(2) or m.group(1)
    return "?"
def modules(claim):
    # the modules with the theorems of the claim
    c = [c for c in json.load(open(ROOT + "/MANIFEST.json"))["claims"] if c["property"] == claim][0]
    names = [t.split(".")[-1] for t in c["theorems"]]
    out = set()
    for q in glob.glob(SCR + "/lean/Verif/Props/*.lean"):
        if any(re.search(r"^theorem %s\b" % re.escape(n), open(q).read(), re.M) for n in names):
            out.add("Verif.Props." + os.path.basename(q)[:-5])
    return sorted(out)
def build(targets):
    # builds until some module has failed
    pr = subprocess.Popen(["lake", "build"] + targets, cwd=SCR + "/lean", stdout=subprocess.PIPE, stderr=subprocess.STDOUT, text=True, start_new_session=True)
    log, timer = "", None
    for line in pr.stdout:
        log += line
        if timer is None and re.search(r"error: Verif/[\w/]+\.lean:\d+:", line):
            timer = threading.Timer(15, lambda: os.killpg(pr.pid, signal.SIGKILL)); timer.start()
    code = pr.wait()
    if timer: timer.cancel()
    return code, log
for m in muts:
    p = os.path.join(SCR, "lean", m["file"])
    src = open(p).read()
    if src.count(m["old"]) < 1:
        print("NOT FOUND", m["definition"], repr(m["old"])); continue
    if src.count(m["old"]) > 1 and not m.get("all"):
        print("AMBIGUOUS", m["definition"], src.count(m["old"])); continue
    open(p, "w").write(src.replace(m["old"], m["new"]))
    for _ in range(3):
        code, log = build(modules(m["claim"]))
        # a compiler that ran out of memory says nothing about the mutation
        if code == 0 or re.search(r"error: Verif/[\w/]+\.lean:\d+:", log): break
    else:
        print("NO VERDICT", m["definition"]); open(p, "w").write(src); continue
    failed, extra = [], ""
    for x in re.findall(r"error: (Verif/[\w/]+\.lean):(\d+):", log):
        n = enclosing(os.path.join(SCR, "lean", x[0]), int(x[1]))
        if n not in failed: failed.append(n)
    notbuilt = []
    if failed:
        # which property modules could not be rebuilt
        bad = set(re.findall(r"error: (Verif/[\w/]+)\.lean:\d+:", log))
        notbuilt = sorted(x.replace("/", ".") for x in bad)
    open(p, "w").write(src)
    rec = dict(definition=m["definition"], edit=m.get("edit") or ("%s -> %s" % (m["old"].strip(), m["new"].strip())),
               claim=m["claim"], failed=failed, failing_modules=notbuilt, tightened=m.get("tightened", []))
    if m.get("note"): rec["note"] = m["note"]
    print("KILLED " if failed else "SURVIVED", m["definition"], m["claim"], failed[:6])
    open(ROOT + "/seeded/LOG.jsonl", "a").write(json.dumps(rec, ensure_ascii=False) + "\n")
