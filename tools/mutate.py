#!/usr/bin/env python3
"""Seeds a bug in a scratch copy of the Lean project and records which property theorems stop being proved.

usage: mutate.py FILE.json [out.jsonl]   -- FILE.json: list of {file, def, old, new, edit, claim, props}
The scratch copy lives in $MUT (default /root/scratch/mut), never in /verif.  $TARGET restricts the build.

A property theorem is counted as failed when its own proof, or a proof it rests on, no longer checks.  The
declarations each theorem rests on come from the sound project (tools/deps_lean.txt, file $DEPS).  Concrete
examples that fail do not count.  While no theorem of the claimed properties has failed, the broken proofs are
replaced by sorry in the scratch copy and the build goes on, so that nothing is counted as failed only because a
module it imports did not compile."""
import json, os, re, subprocess, sys, shutil
MUT = os.environ.get("MUT", "/root/scratch/mut")
SRC = os.environ.get("MUTSRC", "/verif/lean")
DEPS = os.environ.get("DEPS", "/root/scratch/mt/deps.txt")
OUT = sys.argv[2] if len(sys.argv) > 2 else "/verif/seeded/LOG.jsonl"
HEAD = re.compile(r"(?:private |protected |noncomputable |@\[[^\]]*\] )*(theorem|lemma|def|instance|example|structure)\b\s*(\S+)?")
TOP = re.compile(r"(theorem|lemma|def|instance|example|structure|end|section|namespace|variable|open|/--|/-!|@\[|attribute|set_option|noncomputable|private|protected|abbrev|include|omit|universe)\b|/--|/-!|@\[")
deps = {l.split()[0]: set(l.split()[1:]) for l in open(DEPS)}

def enclosing(lines, line):
    for k in range(min(line, len(lines)) - 1, -1, -1):
        m = HEAD.match(lines[k])
        if m: return k, m.group(1), m.group(2)
    return None, None, None

def patch(path, start, kind):
    lines = open(path).read().split("\n")
    end = start + 1
    while end < len(lines) and not TOP.match(lines[end]): end += 1
    block = "\n".join(lines[start:end])
    if kind == "example":
        new = "example : True := trivial"
    else:
        m = re.search(r":= by$|:=$|:= by |:= fun |:= ⟨", block, re.M)
        if m: new = block[:m.start()] + ":= by sorry"
        else:
            k = block.find("\n  | ")
            j = block.rfind(" := ")
            if k >= 0: new = block[:k] + " := by sorry"
            elif j >= 0: new = block[:j] + " := by sorry"
            else: return False
        if new.strip() == block.strip(): return False
    open(path, "w").write("\n".join(lines[:start] + [new, ""] + lines[end:]))
    return True

for mu in json.load(open(sys.argv[1])):
    shutil.rmtree(MUT, ignore_errors=True); subprocess.run(["cp", "-a", SRC, MUT], check=True)
    path = os.path.join(MUT, "Verif", mu["file"])
    s = open(path).read()
    if s.count(mu["old"]) < 1:
        print("NOT FOUND", mu["def"], mu["old"], flush=True); continue
    open(path, "w").write(s.replace(mu["old"], mu["new"], 1))
    failed, examples, lost, note, claimed, finished = set(), set(), set(), "", False, False
    for rnd in range(12):
        try:
            r = subprocess.run(["lake", "build"] + os.environ.get("TARGET", "Verif").split(), cwd=MUT, capture_output=True, text=True, timeout=3600)
        except subprocess.TimeoutExpired:
            note = "build did not end"; break
        txt = r.stdout + r.stderr
        todo = {}
        for m in re.finditer(r"error: (Verif/\S+?\.lean):(\d+):\d+", txt):
            f = os.path.join(MUT, m.group(1))
            k, kind, name = enclosing(open(f).read().split("\n"), int(m.group(2)))
            todo[(f, k)] = (kind, name, m.group(1)[6:-5].replace("/", "."))
        if not todo:
            finished = r.returncode == 0
            if not finished: note = "no position for the errors"
            break
        stuck = False
        for (f, k), (kind, name, mod) in sorted(todo.items(), key=lambda x: (x[0][0], -(x[0][1] or 0))):
            if kind == "example": examples.add(mod)
            elif kind in ("theorem", "lemma"): failed.add(name)
            else: failed.add(name or "?"); note = "the definition %s does not check" % name
            if k is None or kind in ("def", "structure", "instance") or not patch(f, k, kind): stuck = True
        lost = {c for c, d in deps.items() if c in failed or d & failed}
        claimed = any(t.startswith(tuple(x + "_" for x in mu["props"])) and "_violated" not in t for t in lost)
        if claimed or stuck: break
    rec = {"definition": mu["def"], "file": "lean/Verif/" + mu["file"], "edit": mu["edit"], "claim": mu["claim"],
           "properties": mu["props"], "caught": bool(lost), "failed_proofs": sorted(failed),
           "failed_examples_in": sorted(examples), "theorems_failed": sorted(lost),
           "claimed_theorem_failed": claimed, "tightened": mu.get("tightened", [])}
    if note: rec["note"] = note
    if mu.get("note"): rec["note"] = (rec.get("note", "") + " " + mu["note"]).strip()
    print(("caught " if lost else "SURVIVED ") + mu["def"], "|", mu["edit"], "|", len(lost), "props lost; claimed:",
          claimed, "| rounds", rnd + 1, note, flush=True)
    with open(OUT, "a") as f: f.write(json.dumps(rec, ensure_ascii=False) + "\n")
