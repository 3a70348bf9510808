#!/usr/bin/env python3
"""Runs the Lean EWMA model on Float and compares with the outputs recorded in /repo/tests/resources.
Needs no numpy; nothing of /repo is executed. Usage: python3 tools/float_check.py"""
import csv, math, os, struct, subprocess, sys, tempfile
RES = "/repo/tests/resources/"
LEAN = os.path.join(os.path.dirname(os.path.abspath(__file__)), "..", "lean")
def bits(x): return struct.unpack("<Q", struct.pack("<d", x))[0]
def unbits(b): return struct.unpack("<d", struct.pack("<Q", b))[0]
def prices(cols=None):
    rows = list(csv.reader(open(RES + "stock_prices.csv")))
    head, rows = rows[0][1:], rows[1:]
    idx = [head.index(c) for c in cols] if cols else list(range(len(head)))
    out, last = [], [float("nan")] * len(idx)
    for r in rows:                                   # ffill
        cur = [float(r[1 + i]) if r[1 + i] != "" else last[j] for j, i in enumerate(idx)]
        out.append(cur); last = cur
    return out, [head[i] for i in idx]
def pct(P): return [[b / a - 1 for a, b in zip(p, q)] for p, q in zip(P, P[1:])]
def table(name):
    rows = list(csv.reader(open(RES + name)))[1:]
    return [[float(x) for x in r[1:]] for r in rows]
class MT:                                            # numpy legacy seeding + random_sample
    def __init__(s, seed):
        s.mt = [seed & 0xffffffff]
        for i in range(1, 624): s.mt.append((1812433253 * (s.mt[-1] ^ (s.mt[-1] >> 30)) + i) & 0xffffffff)
        s.i = 624
    def u32(s):
        if s.i >= 624:
            for k in range(624):
                y = (s.mt[k] & 0x80000000) | (s.mt[(k + 1) % 624] & 0x7fffffff)
                s.mt[k] = s.mt[(k + 397) % 624] ^ (y >> 1) ^ (0x9908b0df if y & 1 else 0)
            s.i = 0
        y = s.mt[s.i]; s.i += 1
        y ^= y >> 11; y ^= (y << 7) & 0x9d2c5680; y ^= (y << 15) & 0xefc60000; y ^= y >> 18
        return y
    def dbl(s):
        a, b = s.u32() >> 5, s.u32() >> 6
        return (a * 67108864.0 + b) / 9007199254740992.0
def run(R, vh, ch, mv, mc, mean, clip):
    n, T = len(R[0]), len(R)
    with tempfile.NamedTemporaryFile("w", suffix=".txt", delete=False) as f:
        for v in [n, T, bits(vh), bits(ch), mv, mc, int(mean), bits(clip)]: f.write(f"{v}\n")
        for r in R:
            for x in r: f.write(f"{bits(x)}\n")
    out = subprocess.run(["lake", "env", "lean", "--run", "Verif/Run/FloatRun.lean", f.name], cwd=LEAN,
                         capture_output=True, text=True)
    os.unlink(f.name)
    L = out.stdout.split()
    if not L or L[0] == "error": return out.stdout + out.stderr
    v = [unbits(int(x)) for x in L[2:]]
    return int(L[0]), int(L[1]), [v[i * n:(i + 1) * n] for i in range(n)], v[n * n:n * n + n], v[n * n + n:]
def relerr(A, B): return max(abs(a - b) / abs(b) for x, y in zip(A, B) for a, b in zip(x, y))
if __name__ == "__main__":
    P, cols = prices(["GOOG", "AAPL", "FB"]); R = pct(P)
    N, t, cov, m, v = run(R, 10.0, 21.0, 20, 20, False, 4.2)
    print("Sigma_iewma.csv     results", N, "of", len(R), "rows; max rel err", relerr(cov, table("Sigma_iewma.csv")))
    N, t, cov, m, v = run(R, 21.0, 63.0, 20, 20, False, 4.2)
    print("Sigma_combinator.csv (weight of 21-63 is 0.99999999): max rel err", relerr(cov, table("Sigma_combinator.csv")))
    P, cols = prices(); R = pct(P)
    g = MT(0)
    # np.random.choice([False, True], p=[0.9, 0.1]): searchsorted of a uniform in the normalised cdf
    R = [[float("nan") if g.dbl() >= 0.9 / 1.0 else x for x in r] for r in R]
    r = run(R, 63.0, 125.0, 0, 0, False, 0.0)
    print("cov_iewma_nan.csv   results", r[0], "of", len(R), "rows; max rel err", relerr(r[2], table("cov_iewma_nan.csv")))
