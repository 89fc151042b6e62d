"""Print, for every `file.hpp:lines` citation in the given Lean files, the first and last line of the cited range."""
import re, os, sys
files = {}
for r, d, fs in os.walk('/repo'):
    for f in fs:
        if f.endswith('.hpp'): files.setdefault(f, []).append(os.path.join(r, f))
def pick(f):
    return ([q for q in files[f] if '/include/' in q] or [q for q in files[f] if '/examples/' in q] or files[f])[0]
seen = set()
for p in sys.argv[1:]:
    s = open(p).read()
    print('##', os.path.basename(p))
    for c in re.finditer(r'/-.*?-/', s, re.S):
        for m in re.finditer(r'([A-Za-z_0-9/]+\.hpp):\s*(\d+(?:-\d+)?(?:,\s*\d+(?:-\d+)?)*)', c.group(0)):
            f = os.path.basename(m.group(1))
            if f not in files: print('UNKNOWN FILE', f); continue
            L = open(pick(f)).read().split('\n')
            for r in re.split(r',\s*', m.group(2)):
                if (f, r) in seen: continue
                seen.add((f, r))
                a, b = map(int, r.split('-') if '-' in r else (r, r))
                g = lambda i: L[i-1].strip()[:46] if i <= len(L) else 'EOF'
                print(f"{f[:-4]}:{r} [{s[c.end():c.end()+60].strip().split(chr(10))[0][:32]}] {g(a)} ... {g(b)}")
