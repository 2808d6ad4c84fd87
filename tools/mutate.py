#!/usr/bin/env python3
"""Run seeded bugs against the model.
usage: mutate.py mutants.json [--log]      (mutants: list of {id,file,def,old,new,claim,bug})
Works in /tmp/mut (a scratch copy of /verif/lean). Prints one verdict per mutant; with --log appends
to /verif/seeded/LOG.jsonl."""
import json, os, re, subprocess, sys, shutil, time
SRC = "/verif/lean"; DST = os.environ.get("MUT", "/tmp/mut")
def sh(c, **k): return subprocess.run(c, shell=True, capture_output=True, text=True, **k)
def sync():
    os.makedirs(DST, exist_ok=True)
    sh(f"rsync -a --delete {SRC}/ {DST}/ || (rm -rf {DST} && cp -a {SRC} {DST})")
def enclosing(path, line):
    name = None
    for i, l in enumerate(open(path), 1):
        if i > line: break
        m = re.match(r"\s*(?:@\[[^\]]*\]\s*)?(?:private |protected |noncomputable )*(theorem|lemma|def|example|instance|abbrev|structure|inductive)\b\s*([^\s:({\[]*)", l)
        if m: name = (m.group(1) + " " + m.group(2)).strip() if m.group(1) != "theorem" else m.group(2)
    return name or "?"
def main():
    muts = json.load(open(sys.argv[1])); log = "--log" in sys.argv
    sync()
    for m in muts:
        rel = m["file"]; p = f"{DST}/{rel}"; orig = open(p).read()
        if orig.count(m["old"]) != m.get("count", 1):
            print(m["id"], "BAD PATTERN", orig.count(m["old"])); continue
        if "def" not in m:
            m["def"] = re.sub(r"^(def|theorem|inductive|structure) ", "", enclosing(p, orig[:orig.index(m["old"])].count("\n") + 1 + m["old"].lstrip("\n").count("\n")*0))
        open(p, "w").write(orig.replace(m["old"], m["new"]))
        t = time.time()
        r = sh("lake build Verif", cwd=DST)
        out = r.stdout + r.stderr
        open(p, "w").write(orig)
        failed, modelerr = [], False
        for f, ln in re.findall(r"error: (Verif/\S+?\.lean):(\d+):\d+", out):
            n = enclosing(f"{DST}/{f}", int(ln)) if f != rel else None
            if f == rel: modelerr = True; n = "(model does not compile)"
            if n not in failed: failed.append(n)
        blocked = sorted(set(re.findall(r"^- (Verif\S*)", out, re.M)))
        verdict = "SURVIVED" if r.returncode == 0 else ("MODELERR" if modelerr else "killed")
        print(m["id"], verdict, round(time.time()-t), failed[:6], flush=True)
        if log and verdict != "MODELERR":
            e = {"id": m["id"], "definition": m["def"], "file": rel, "edit": f"{m['old'].strip()}  ==>  {m['new'].strip()}",
                 "bug": m["bug"], "claim_broken": m["claim"], "theorems_failed": failed,
                 "modules_failed": [b for b in blocked if b != "Verif"], "survived": r.returncode == 0,
                 "theorems_tightened": m.get("tightened", [])}
            open("/verif/seeded/LOG.jsonl", "a").write(json.dumps(e) + "\n")
    
main()
