"""List the functions of /repo whose definition line no citation in the model covers."""
import re, glob, os
cites = {}
for f in glob.glob("/verif/lean/Verif/Model/*.lean"):
    t = open(f).read()
    last = None
    for m in re.finditer(r"(?:((?:cuthbert|cuthbertlib)/[\w/]+\.py)|(?<![\w/])(\w+\.py)):(\d+)(?:-(\d+))?", t):
        p = m.group(1)
        if p: last = p
        elif last: p = os.path.join(os.path.dirname(last), m.group(2))
        a = int(m.group(3)); b = int(m.group(4) or a)
        cites.setdefault(p, []).append((a, b))
for root in ("cuthbert", "cuthbertlib"):
    for p in sorted(glob.glob(f"/repo/{root}/**/*.py", recursive=True)):
        rel = p[len("/repo/"):]
        for n, l in enumerate(open(p), 1):
            m = re.match(r"\s*def (\w+)", l)
            if m and not any(a <= n <= b for a, b in cites.get(rel, [])):
                print(rel, n, m.group(1))
