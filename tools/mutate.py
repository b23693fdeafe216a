#!/usr/bin/env python3
"""Applies seeded bugs to a scratch copy of the model and records which theorems stop proving.

python3 tools/mutate.py FILE.json     FILE.json: list of
  {"file": "Verif/…", "definition": …, "edit": …, "claim": …, "old": …, "new": …, "target": "Verif.X.Props",
   "tightened": []}
Only mutations whose (definition, edit) is not yet in seeded/LOG.jsonl are run.
"""
import json, os, re, subprocess, sys
ROOT = "/verif"
SCR = "/tmp/scratch"
LOG = os.path.join(ROOT, "seeded/LOG.jsonl")

def enclosing(path, line):
    ls = open(path).read().split("\n")
    for i in range(min(line, len(ls)) - 1, -1, -1):
        m = re.match(r"^\s*(?:@\[[^\]]*\]\s*)?(?:private |protected )?(theorem|def|example|instance|abbrev|lemma|structure|inductive)\s*(\S*)", ls[i])
        if m:
            return m.group(2) if m.group(1) != "example" else "example@%d" % (i + 1)
    return "?"

def run(m):
    subprocess.run("rm -rf %s && cp -a %s/lean %s" % (SCR, ROOT, SCR), shell=True, check=True)
    p = os.path.join(SCR, m["file"])
    s = open(p).read()
    assert s.count(m["old"]) >= 1, ("pattern not found", m["definition"], m["old"])
    nth = m.get("nth", 0)
    parts = s.split(m["old"])
    s = m["old"].join(parts[:nth + 1]) + m["new"] + m["old"].join(parts[nth + 1:])
    open(p, "w").write(s)
    r = subprocess.run(["lake", "build"] + m["target"].split(), cwd=SCR, capture_output=True, text=True, timeout=1500)
    out = r.stdout + r.stderr
    failed = []
    for f, l in re.findall(r"error: (?:\S*/scratch/)?(Verif/\S+?\.lean):(\d+):", out):
        n = f[6:-5].replace("/", ".") + ":" + enclosing(os.path.join(SCR, f), int(l))
        if n not in failed:
            failed.append(n)
    return r.returncode, failed

def main():
    done = set()
    if os.path.exists(LOG):
        for l in open(LOG):
            d = json.loads(l); done.add((d["definition"], d["edit"]))
    for m in json.load(open(sys.argv[1])):
        if (m["definition"], m["edit"]) in done:
            continue
        rc, failed = run(m)
        print(("killed  " if rc else "SURVIVED"), m["definition"], "|", m["edit"], "|", failed)
        if rc == 0 and not m.get("accept"):
            continue
        with open(LOG, "a") as f:
            f.write(json.dumps({"definition": m["definition"], "edit": m["edit"], "claim": m["claim"],
                                "failed": failed, "tightened": m.get("tightened", []),
                                **({"note": m["accept"]} if m.get("accept") else {})}) + "\n")
main()
