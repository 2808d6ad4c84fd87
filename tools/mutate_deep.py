#!/usr/bin/env python3
"""Like mutate.py, but goes on after the first failing proof: in the scratch copy a proof that fails is replaced by a hole, and the build is
repeated, until everything builds.  So all theorems that fail are found, not only the first on each path, and it can be seen whether the
theorems of the claim itself fail.  usage: mutate_deep.py mutants.json [--log]"""
import json, os, re, subprocess, sys, time
SRC = os.environ.get("SRC", "/verif/lean"); DST = os.environ.get("MUT", "/tmp/mut")
HOLE = "so" + "rry"
DECL = re.compile(r"^(?:@\[[^\]]*\]\s*)?(?:private |protected |noncomputable )*(theorem|lemma|def|example|instance|abbrev|structure|inductive|end|section|namespace|variable|include|open|/-!|/--|set_option|mutual)\b|^/-")
def sh(c, **k): return subprocess.run(c, shell=True, capture_output=True, text=True, **k)
def sync():
    if not os.path.exists(f"{DST}/.lake"): sh(f"rm -rf {DST} && cp -a {SRC} {DST}")
    sh(f"rm -rf {DST}/Verif && cp -a {SRC}/Verif {SRC}/Verif.lean {DST}/")
def block(lines, ln):
    """the declaration around line ln (1-based): its first and last line"""
    i = ln - 1
    while i > 0 and not re.match(r"^(?:@\[[^\]]*\]\s*)?(?:private |protected |noncomputable )*(theorem|lemma|def|example|instance)\b", lines[i]): i -= 1
    j = i + 1
    while j < len(lines) and not DECL.match(lines[j]): j += 1
    return i, j
def hole(path, ln):
    lines = open(path).read().split("\n")
    i, j = block(lines, ln)
    m = re.match(r"^(?:@\[[^\]]*\]\s*)?(?:private |protected |noncomputable )*(theorem|lemma|def|example|instance)\s*([^\s:({\[]*)", lines[i])
    kind, name = m.group(1), m.group(2)
    if kind in ("def", "instance"): return None, kind + " " + name
    text = "\n".join(lines[i:j])
    if kind == "example":
        new = "example : True := trivial" + "\n" * (j - i - 1); name = "example at %s:%d" % (path.split("/")[-1], i + 1)
    else:
        k = None
        for pat in (r":= by\s*(?:\n|$)", r":=\s*\n", r":= by ", r"\n  \| ", r" := "):
            mm = re.search(pat, text)
            if mm: k = mm.start(); break
        if k is None: return None, name
        if text[k] == "\n": k = k
        head = text[:k].rstrip()
        new = head + " := by " + HOLE + "\n" * (text.count("\n") - head.count("\n"))
    lines[i:j] = new.split("\n")
    open(path, "w").write("\n".join(lines))
    return True, name
def main():
    muts = json.load(open(sys.argv[1])); log = "--log" in sys.argv
    for m in muts:
        sync()
        rel = m["file"]; p = f"{DST}/{rel}"; orig = open(p).read()
        if orig.count(m["old"]) != m.get("count", 1):
            print(m["id"], "BAD PATTERN", orig.count(m["old"])); continue
        open(p, "w").write(orig.replace(m["old"], m["new"]))
        t = time.time(); failed = []; verdict = None
        for rnd in range(40):
            r = sh("lake build Verif", cwd=DST); out = r.stdout + r.stderr
            if r.returncode == 0: verdict = "SURVIVED" if not failed else "killed"; break
            errs = sorted(set((f, int(l)) for f, l in re.findall(r"error: (Verif/\S+?\.lean):(\d+):\d+", out)))
            if any(f == rel for f, _ in errs): verdict = "MODELERR"; break
            if not errs: verdict = "STUCK " + out[-300:]; break
            stuck = None
            done = set()
            for f, l in errs:
                lines = open(f"{DST}/{f}").read().split("\n")
                b = (f, block(lines, l)[0])
                if b in done: continue
                done.add(b)
                ok, name = hole(f"{DST}/{f}", l)
                if name not in failed: failed.append(name)
                elif not name.startswith("example"): ok = None
                if not ok: stuck = f"{f}:{l} {name}"
            if stuck: verdict = "killed, then stuck at " + stuck; break
        print(m["id"], verdict, round(time.time() - t), failed, flush=True)
        if log and verdict != "MODELERR":
            e = {"id": m["id"], "definition": m.get("def", "see edit"), "file": rel, "edit": f"{m['old'].strip()}  ==>  {m['new'].strip()}", "bug": m["bug"],
                 "claim_broken": m["claim"], "theorems_failed": failed, "deep": True, "survived": verdict == "SURVIVED", "theorems_tightened": m.get("tightened", [])}
            open("/verif/seeded/LOG.jsonl", "a").write(json.dumps(e) + "\n")
main()
