#!/usr/bin/env python3
"""Rewrites sections 4 and 5 of DESIGN.md from MANIFEST.json, properties.jsonl and the sources cited in the model."""
import json, os, re
root = os.path.dirname(os.path.dirname(os.path.abspath(__file__)))
props = {}
for l in open(f"{root}/properties.jsonl"):
    p = json.loads(l)
    props[p["id"]] = p
man = {c["property"]: c for c in json.load(open(f"{root}/MANIFEST.json"))["claims"]}
short = lambda t: t.split(".")[-1]
neg = re.compile(r"^not_|counterexample|_ub$|_wrong$|_lost$|_twice$|_diverges$|_removed$|two_drivers$|_not_checked$|^two_step_loop$|^slice_loop$|^condition_loop$|_left_behind$|_forever$|^holes$|_missed$|_refused$")
out = ["## 4. Where the code does not do what is claimed", "",
       "Every row is a property whose full statement is false of the code, or proved in part.  The theorems in the third",
       "column are machine-checked refutations (a concrete design, history or input); the fourth column says what is",
       "true and what is missing.  `not_…Claim` negates the full statement, which is kept as a `def …Claim : Prop`.", "",
       "| id | property | refutations | proved, and missing |", "|----|----------|-------------|-------------------|"]
for i in sorted(props):
    c = man.get(i)
    if c is None or c["status"] == "proved":
        continue
    ts = [short(t) for t in c["theorems"]]
    n = [t for t in ts if neg.search(t)]
    out.append(f"| {i} | {props[i]['title']} | {', '.join('`'+t+'`' for t in n)} | {c['note'].replace('|', '/')} |")
out += ["", "Proved in full: " + ", ".join(f"{i} ({props[i]['title']})" for i in sorted(props) if man.get(i, {}).get("status") == "proved") + ".", ""]
miss = [i for i in sorted(props) if i not in man]
if miss:
    out += ["Not yet treated: " + ", ".join(miss) + ".", ""]
out += ["## 5. Current state: which code is modelled where", "",
        "Per module: the source files its definitions cite and the number of theorems.  A definition's own comment gives the",
        "lines and what was simplified; code not cited by any definition is not modelled.", "",
        "| module | models | theorems |", "|--------|--------|----------|"]
cited = {}
for d, _, fs in sorted(os.walk(f"{root}/lean/Verif")):
    for f in sorted(fs):
        if not f.endswith(".lean") or f == "Audit.lean":
            continue
        s = open(os.path.join(d, f)).read()
        src = {}
        for m in re.finditer(r"\b((?:src|kratos)/[a-z_]+\.(?:cc|hh|py))(?::([0-9]+)(?:-([0-9]+))?)?", s):
            src.setdefault(m.group(1), 0)
            src[m.group(1)] += 1
            if m.group(2):
                a, b = int(m.group(2)), int(m.group(3) or m.group(2))
                cited.setdefault(m.group(1), set()).update(range(a, b + 1))
        n = len(re.findall(r"^(?:private )?theorem ", s, re.M))
        mod = os.path.relpath(os.path.join(d, f), f"{root}/lean")[:-5].replace("/", ".")
        out.append(f"| `{mod}` | {', '.join(sorted(src)) or '(specification and lemmas)'} | {n} |")
out += ["", "Lines of each source file cited by some definition or theorem (a lower bound on what was read, an upper bound on",
        "what is modelled):", "", "| file | cited lines |", "|------|------------|"]
for f in sorted(cited):
    p = f"/repo/{f}"
    tot = sum(1 for _ in open(p)) if os.path.exists(p) else 0
    out.append(f"| {f} | {len(cited[f])} of {tot} |")
path = f"{root}/DESIGN.md"
s = open(path).read()
i = s.find("## 4. ")
if i >= 0:
    s = s[:i]
open(path, "w").write(s.rstrip() + "\n\n" + "\n".join(out) + "\n")
