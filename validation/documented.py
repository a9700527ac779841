"""Compares the numbers printed in /repo/python/doc/source/SnFFT.rst and Sn.rst with the formulas that the specification of C23, C33, C37,
C38 and C40 states: Young's orthogonal form in the basis of the list of standard tableaux, parts sum_s f(s) rho(s^-1), and on Sn/Sm the
columns of the sum over the representatives that are fixed by Sm. Nothing of the library is run. Usage: python3 documented.py"""
import math
import re

DOC = '/repo/python/doc/source/'


def tableaux(lam):
    """standard tableaux as words (row of 1, row of 2, ...), in the order of Model/Tableau.lean"""
    if sum(lam) == 1:
        return [[0]]
    out = []
    for i in reversed(range(len(lam))):
        if i == len(lam) - 1 or lam[i] > lam[i + 1]:
            mu = [x - (j == i) for j, x in enumerate(lam) if x - (j == i) > 0]
            out += [w + [i] for w in tableaux(mu)]
    return out


def contents(w):
    n, c = {}, []
    for r in w:
        c.append(n.get(r, 0) - r)
        n[r] = n.get(r, 0) + 1
    return c


def mul(a, b):
    return [[sum(x * y for x, y in zip(r, c)) for c in zip(*b)] for r in a]


def tau(lam, k):
    """rho of the exchange of k and k+1"""
    t = tableaux(lam)
    m = [[0.0] * len(t) for _ in t]
    for a, w in enumerate(t):
        c = contents(w)
        d = c[k] - c[k - 1]
        m[a][a] = 1 / d
        if abs(d) > 1:
            v = list(w)
            v[k - 1], v[k] = v[k], v[k - 1]
            m[a][t.index(v)] = math.sqrt(1 - 1 / d ** 2)
    return m


def rho(lam, p):
    d = len(tableaux(lam))
    m = [[float(i == j) for j in range(d)] for i in range(d)]
    q = list(p)
    while True:
        for i in range(len(q) - 1):
            if q[i] > q[i + 1]:
                q[i], q[i + 1] = q[i + 1], q[i]
                m = mul(tau(lam, i + 1), m)
                break
        else:
            return m


def inverse(p):
    return [p.index(i + 1) + 1 for i in range(len(p))]


def transform(lam, pairs):
    d = len(tableaux(lam))
    r = [[0.0] * d for _ in range(d)]
    for p, v in pairs:
        m = rho(lam, inverse(p))
        r = [[x + v * y for x, y in zip(a, b)] for a, b in zip(r, m)]
    return r


def parts(text):
    res = []
    for m in re.finditer(r'Part \[([\d,]+)\]:\n((?:\s*\[ .* \]\n)+)', text):
        rows = [[float(x) for x in r.split()] for r in re.findall(r'\[ (.*) \]', m[2])]
        res.append(([int(x) for x in m[1].split(',')], rows))
    return res


def close(a, b):
    return len(a) == len(b) and all(len(x) == len(y) and all(abs(u - v) < 1e-4 for u, v in zip(x, y)) for x, y in zip(a, b))


def check(name, ok):
    print(('ok   ' if ok else 'FAIL ') + name)
    return ok


t = open(DOC + 'SnFFT.rst').read()
blocks = t.split('>>>')
f = [([int(x) for x in m[1].split()], float(m[2])) for m in re.finditer(r'\[ ([\d ]+) \] : (\S+)', t[:t.index('We can now')])]
els = [p for p, _ in f]
good = check('S4: 24 values', len(f) == 24)
first = parts(t[t.index('We can now'):t.index('The inverse Fourier')])
good &= check('S4: shapes', [l for l, _ in first] == [[4], [3, 1], [2, 2], [2, 1, 1], [1, 1, 1, 1]])
for lam, rows in first:
    good &= check('S4: part %s' % lam, close(rows, transform(lam, f)))
back = [float(m) for m in re.findall(r'\] : (\S+)', t[t.index('fd=fft.inv(F)'):t.index('FFTs on Sn/Sm')])]
good &= check('S4: inverse', close([back], [[v for _, v in f]]))
s = t[t.index('SnOverSmFunction.gaussian(4,2)'):]
g = [float(x) for x in s.split('print(f)')[1].split('>>>')[0].split()]
good &= check('S4/S2: 12 values', len(g) == 12)
second = parts(s)
good &= check('S4/S2: shapes', [l for l, _ in second] == [[4], [3, 1], [2, 2], [2, 1, 1]])
for lam, rows in second:
    full = transform(lam, [(els[2 * i], g[i]) for i in range(12)])
    cols = [j for j, w in enumerate(tableaux(lam)) if w[:2] == [0, 0]]
    good &= check('S4/S2: part %s' % lam, close(rows, [[r[j] for j in cols] for r in full]))
back = [float(m) for m in re.findall(r'\] : (\S+)', s[s.index('inv_snsm'):])]
good &= check('S4/S2: values of inv_snsm', close([back], [g]))
u = open(DOC + 'Sn.rst').read()
m = re.search(r'rho\[pi\]\)\n((?:\s*\[ .* \]\n)+)', u)
good &= check('rho[3,1] at [3,2,1,4]', close([[float(x) for x in r.split()] for r in re.findall(r'\[ (.*) \]', m[1])], rho([3, 1], [3, 2, 1, 4])))
chi = re.search(r'chi\[3,2\]:\n((?:\s*SnCClass.*\n)+)', u)[1]
for c, v in re.findall(r'SnCClass\[([\d,]+)\] : (\S+)', chi):
    p, o = [], 0
    for k in map(int, c.split(',')):
        p += [o + (i + 1) % k + 1 for i in range(k)]
        o += k
    r = rho([3, 2], p)
    good &= check('chi[3,2] at [%s]' % c, abs(sum(r[i][i] for i in range(5)) - float(v)) < 1e-4)
print('all agree' if good else 'DISAGREEMENT')
