"""Prints the tables of lean/Verif/AutoGuide.lean from Reasoner/makeguide.c (text only, nothing is run)."""
import json, re, sys

SRC = sys.argv[1] if len(sys.argv) > 1 else "/repo/Reasoner/makeguide.c"
PARTS = [(95, 166, "unitEq"), (167, 185, "unitEqMore"), (188, 241, "plain0"), (242, 290, "plain1"), (291, 347, "plain2"), (348, 401, "plain3"),
         (402, 443, "plain4"), (444, 564, "equal0"), (565, 697, "equal1"), (698, 845, "equal2"), (846, 971, "equal3"), (972, 1091, "equal4")]
FLAGS = {"queryok": "query", "qp1ok": "qp1", "qp2ok": "qp2", "qp3ok": "qp3", "sineok": "sine", "eq": "eq"}

def condition(c):
    c = re.sub(r"^if\s*", "", c).strip()
    if c.startswith("(") and c.endswith(")"):
        c = c[1:-1].strip()
    first, below, flags = 0, 100, []
    m = re.match(r"iteration<(\d)\s*\|\|\s*\((.*)\)$", c)
    if m:
        first, c = int(m.group(1)), m.group(2)
    for p in c.split("&&"):
        p = p.strip().strip("()")
        m = re.match(r"iteration<(\d)$", p)
        if m:
            below = int(m.group(1))
        elif p not in ("", "1"):
            flags.append(FLAGS[p])
    return first, below, flags

lines = open(SRC).read().split("\n")
for lo, hi, name in PARTS:
    rows = []
    for t in (l.strip() for l in lines[lo - 1:hi]):
        if "sprintf" not in t or t.startswith("//"):
            continue
        cond, rest = t.split("pos+=", 1)
        m = re.match(r'sprintf\(buf\+pos,\s*("(?:[^"\\]|\\.)*")\s*,\s*dsecs\);', rest)
        first, below, flags = condition(cond.strip())
        rows.append("⟨%d, %d, [%s], %d⟩" % (first, below, ", ".join("." + f for f in flags), len(json.loads(m.group(1))) - 2))
    print("def %s : List Entry :=\n  [%s]" % (name, ", ".join(rows)))
