#!/usr/bin/env python3
"""Which functions of /repo/src are cited by a definition of the model (lean/Verif/Model), by file and lines."""
import re, os, glob, sys
cites = {}
for f in glob.glob('/verif/lean/Verif/**/*.lean', recursive=True):
    s = open(f).read()
    last = None
    for m in re.finditer(r'(?:(src/[\w/\-]+\.rs):|, |; |and )(\d+)(?:-(\d+))?', s):
        if m.group(1): last = (m.group(1), m.end())
        elif last is None or m.start() != last[1]: last = None; continue
        else: last = (last[0], m.end())
        a = int(m.group(2)); b = int(m.group(3) or a)
        cites.setdefault(last[0], []).append((a, b, os.path.relpath(f, '/verif/lean/Verif')))
tot = cov = 0
for root, _, fs in os.walk('/repo/src'):
    for fn in sorted(fs):
        if not fn.endswith('.rs'): continue
        p = os.path.join(root, fn); rel = os.path.relpath(p, '/repo')
        L = open(p).read().split('\n')
        stop = next((i for i, l in enumerate(L) if '#[cfg(test)]' in l and 'mod' in ''.join(L[i:i+2])), len(L))
        i = 0
        while i < stop:
            m = re.match(r'\s*(?:pub(?:\(crate\))? )?(?:async )?fn (\w+)', L[i])
            if m:
                d = 0; j = i; seen = False
                while j < len(L):
                    d += L[j].count('{') - L[j].count('}')
                    if '{' in L[j]: seen = True
                    if (seen and d <= 0) or (not seen and L[j].rstrip().endswith(';')): break
                    j += 1
                hit = sorted({c[2] for c in cites.get(rel, []) if c[0] <= j + 1 and c[1] >= i + 1})
                tot += 1; cov += bool(hit)
                if not hit or '-v' in sys.argv: print(f"{rel}:{i+1}-{j+1} {m.group(1)} {hit if hit else 'NOT CITED'}")
                if not seen: pass
            i += 1
print(cov, 'of', tot)
