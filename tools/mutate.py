"""Runs seeded bugs against the theorems.

usage: mutate.py mutants.json [id ...]
A mutant is {"id", "file" (under lean/Verif), "old", "new", "def", "edit", "claim", "claim_ids", ["count"]};
with "theorems" only those theorems of the claims are aimed at; with "line", "col" and "text" the edit is made at that place.  Without claim_ids every listed theorem is a target, the claims are
those of the theorems lost, and edits that do not compile are passed over.
A build is stopped as soon as a theorem of one of the claims is lost ("stopped_early"), so that the list of failed theorems
need not be complete.
Works in a scratch copy (/tmp/mut); appends one line per mutant to seeded/LOG.jsonl."""
import json, os, re, signal, subprocess, sys
ROOT = os.path.dirname(os.path.dirname(os.path.abspath(__file__)))
SCR = os.environ.get("MUT_DIR", "/tmp/mut")

def sh(cmd, cwd):
    return subprocess.run(cmd, cwd=cwd, shell=True, capture_output=True, text=True).stdout

def sync():
    os.makedirs(SCR, exist_ok=True)
    sh(f"rm -rf {SCR}/lean && cp -a {ROOT}/lean {SCR}/lean", "/")
    # the transcribed unit tests are no theorems: leave them out
    sh(f"sed -i '/^import Verif.Checks/d' {SCR}/lean/Verif.lean", "/")

def decl_at(path, line):
    ls = open(path).read().split("\n")
    for i in range(line - 1, -1, -1):
        m = re.match(r"(?:private |protected |noncomputable |@\[[^\]]*\] )*(theorem|lemma|def|example|instance|structure|inductive)\b\s*(\S*)", ls[i])
        if m:
            return ("example" if m.group(1) == "example" else m.group(2)), i + 1
    return "?", 0

def sorry_decl(path, at):
    """replaces the proof of the theorem at a line by sorry, so that the modules that import it are tried too"""
    ls = open(path).read().split("\n")
    end = at
    while end < len(ls) and (ls[end] == "" or ls[end][0] in " \t)|·"):
        end += 1
    t = "\n".join(ls[at - 1:end])
    depth = 0
    for i, c in enumerate(t):
        if c in "([{⟨":
            depth += 1
        elif c in ")]}⟩":
            depth -= 1
        elif depth == 0 and t.startswith(":=", i):
            ls[at - 1:end] = (t[:i] + ":= by sorry\n").split("\n")
            open(path, "w").write("\n".join(ls))
            return True
    return False

def deps():
    cache, ref = SCR + "-deps.txt", ROOT + "/lean/.lake/build/lib/lean/Verif.olean"
    if not (os.path.exists(cache) and os.path.getmtime(cache) > os.path.getmtime(ref)):
        out = sh("cp ../tools/Deps.lean.txt /tmp/Deps.lean && lake env lean /tmp/Deps.lean", ROOT + "/lean")
        open(cache, "w").write(out)
    d = {}
    for l in open(cache):
        if "\t" in l:
            a, b = l.rstrip("\n").split("\t")
            d[a] = set(b.split())
    return d

def near(m, tgt):
    """the modules to build first: those with the theorems aimed at, or those that mention the definition"""
    names = [t.split(".")[-1] for t in tgt]
    pat = (r"^(?:private )?theorem (?:\w+\.)*(?:" + "|".join(map(re.escape, names)) + r")\b" if names
           else r"\b" + re.escape(m["def"].split(".")[-1]) + r"\b")
    out = []
    for d in ["Lemmas", "Props"]:
        for f in sorted(os.listdir(f"{SCR}/lean/Verif/{d}")):
            if re.search(pat, open(f"{SCR}/lean/Verif/{d}/{f}").read(), re.M):
                out.append(f"Verif.{d}.{f[:-5]}")
    return " ".join(out)

def main():
    muts = json.load(open(sys.argv[1]))
    if len(sys.argv) > 2:
        muts = [m for m in muts if m["id"] in sys.argv[2:]]
    D = deps()
    short = {}
    for k in D:
        short.setdefault(k.split(".")[-1], set()).add(k)
    claims = {c["property"]: c for c in json.load(open(ROOT + "/MANIFEST.json"))["claims"]}
    titles = {d["id"]: d["title"] for d in map(json.loads, open(ROOT + "/properties.jsonl"))}
    mani = {t for c in claims.values() for t in c["theorems"]}
    for m in muts:
        sync()
        p = f"{SCR}/lean/Verif/{m['file']}"
        s = open(p).read()
        if "line" in m:
            ls = s.split("\n")
            l = ls[m["line"] - 1]
            assert l == m["text"], ("line changed", m["id"])
            ls[m["line"] - 1] = l[:m["col"]] + m["new"] + l[m["col"] + len(m["old"]):]
            s = "\n".join(ls)
        else:
            n = s.count(m["old"])
            assert n >= 1, ("no match", m["id"])
            assert n == 1 or m.get("count"), ("ambiguous", m["id"], n)
            s = s.replace(m["old"], m["new"], 1 if m.get("count") != "all" else -1)
        open(p, "w").write(s)
        tgt = [t for t in sorted(mani) if t.split(".")[-1] in m.get("theorems", [])] or [t for c in m["claim_ids"] for t in claims.get(c, {"theorems": []})["theorems"]] or sorted(mani)
        fails, built, lost, hit, early, invalid = [], None, [], [], False, False
        first = near(m, tgt if m["claim_ids"] else [])
        for rnd in range(9):
            bad = set()
            pr = subprocess.Popen(f"lake build {first if rnd == 0 else ''} 2>&1", cwd=SCR + "/lean", shell=True, text=True, stdout=subprocess.PIPE,
                                  start_new_session=True)
            ok = False
            for line in pr.stdout:
                ok = ok or "Build completed successfully" in line
                e = re.match(r"error: (Verif/[\w/]+\.lean):(\d+):\d+:", line)
                if not e:
                    continue
                f = e.group(1)
                name, at = decl_at(f"{SCR}/lean/{f}", int(e.group(2)))
                bad.add((f, at))
                if "line" in m and f.startswith("Verif/Model") and name != "example":
                    invalid = True
                    os.killpg(pr.pid, signal.SIGKILL)
                    break
                e = f"example at {f}:{at}" if name == "example" else name
                if e in fails:
                    continue
                fails.append(e)
                direct = set()
                for x in fails:
                    direct |= short.get(x.split(".")[-1], set())
                lost = sorted(k for k in mani if k in direct or D.get(k, set()) & direct)
                hit = [t for t in tgt if t in lost]
                if hit:
                    early = True
                    os.killpg(pr.pid, signal.SIGKILL)
                    break
            pr.stdout.close()
            pr.wait()
            if built is None and (rnd > 0 or bad):
                built = ok
            if invalid or hit or (rnd > 0 and not bad):
                break
            if not all([sorry_decl(f"{SCR}/lean/{f}", at) for f, at in sorted(bad, reverse=True)]):
                break
        if invalid:
            print(m["id"], "does not compile", fails, flush=True)
            continue
        if not m["claim_ids"] and hit:
            m["claim_ids"] = [c for c in claims if any(t in hit for t in claims[c]["theorems"])][:5]
            m["claim"] = "; ".join(titles[c] for c in m["claim_ids"][:2])
        rec = {"id": m["id"], "definition": m["def"], "edit": m["edit"], "claim_broken": m["claim"],
               "claims": m["claim_ids"], "build": "ok" if built else "failed", "failed_directly": fails,
               "property_theorems_lost": [t.replace("NumIrr.", "") for t in lost], "tightened": []}
        if early:
            rec["stopped_early"] = True
        rec["verdict"] = "caught" if hit else "SURVIVED" if built else "NO-TARGET-HIT"
        with open(ROOT + "/seeded/LOG.jsonl", "a") as f:
            f.write(json.dumps(rec, ensure_ascii=False) + "\n")
        print(m["id"], rec["verdict"], len(fails), len(lost), fails[:3], flush=True)
main()
