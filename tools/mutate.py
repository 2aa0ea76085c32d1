"""Apply one edit to the model in a scratch copy, rebuild, log which theorems fail.

usage: mutate.py FILE.json   (a list of {file, def, old, new, claim, [tightened], [also]})
`also` is a list of further {file, old, new}: the same edit in the auxiliary definitions that proofs go
through, so that the theorems behind the first unfolding lemma are tested too.
The scratch copy is /tmp/mut/lean. Appends to seeded/LOG.jsonl.
"""
import json, os, re, subprocess, sys
ROOT = "/verif"; SC = "/tmp/mut/lean"

def enclosing(path, line):
    lines = open(path).read().split("\n")
    for i in range(min(line, len(lines)) - 1, -1, -1):
        m = re.match(r"\s*(?:@\[[^\]]*\]\s*)?(?:private |protected |noncomputable )*(theorem|lemma|def|example|instance|structure)\b\s*(\S*)", lines[i])
        if m:
            return m.group(2) if m.group(1) not in ("example",) else "example"
    return "?"

def main():
    muts = json.load(open(sys.argv[1]))
    os.makedirs("/tmp/mut", exist_ok=True)
    subprocess.run(["rsync", "-a", "--delete", ROOT + "/lean/", SC + "/"], check=True) if subprocess.run(["which", "rsync"], capture_output=True).returncode == 0 else subprocess.run("rm -rf /tmp/mut/lean && cp -a /verif/lean /tmp/mut/lean", shell=True, check=True)
    # the committed sources, with the build products of the working tree
    subprocess.run(f"git -C {ROOT} archive HEAD lean | tar -x -C /tmp/mut", shell=True, check=True)
    for m in muts:
        origs, bad = {}, False
        for e in [m] + m.get("also", []):
            p = f"{SC}/Verif/{e['file']}"
            cur = open(p).read()
            origs.setdefault(p, cur)
            if cur.count(e["old"]) != 1:
                print("SKIP", m["def"], e["old"][:40], "occurrences:", cur.count(e["old"])); bad = True; break
            open(p, "w").write(cur.replace(e["old"], e["new"]))
        if bad:
            for p, o in origs.items(): open(p, "w").write(o)
            continue
        r = subprocess.run(["lake", "build"], cwd=SC, capture_output=True, text=True)
        out = r.stdout + r.stderr
        failed = []
        for f, l in re.findall(r"error: (Verif/[\w/]+\.lean):(\d+):", out):
            nm = enclosing(f"{SC}/{f}", int(l))
            if (f, nm) not in failed: failed.append((f, nm))
        for p, o in origs.items(): open(p, "w").write(o)
        names = [nm for _, nm in failed]
        print("KILLED" if names else "SURVIVED", "|", m["def"], "|", m["edit"] if "edit" in m else m["new"][:60], "|", names)
        rec = {"definition": m["def"], "edit": m.get("edit", f"{m['old']}  ==>  {m['new']}"), "claim_broken": m["claim"],
               "theorems_failed": names, "theorems_tightened": m.get("tightened", [])}
        if "also" in m: rec["edited_with_it"] = [e["new"] for e in m["also"]]
        if not names: rec["note"] = m.get("note", "SURVIVED")
        with open(ROOT + "/seeded/LOG.jsonl", "a") as fh: fh.write(json.dumps(rec, ensure_ascii=False) + "\n")

main()
