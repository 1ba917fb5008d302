#!/usr/bin/env python3
"""Run the project's own unit tests against the Lean model.

The test files of the TOML and the semver crate are read with a small interpreter for the part of
Rust they use; every call of a `check…` helper becomes a case (kind, input, expected value). A
generated Lean program prints what the model computes for the inputs, as JSON, and the two are
compared field by field.

This is a test of the reading of the Rust source, not a proof.
Usage: python3 tools/conform/unit.py   (after `lake build` in lean/)
"""
import json, os, re, subprocess, sys, tempfile
here = os.path.dirname(os.path.abspath(__file__))
lean = os.path.join(here, '..', '..', 'lean')
R = '/repo/crates/'

# ---------------------------------------------------------------- tokens of Rust
TOK = re.compile(r'''
 (?P<ws>\s+|//[^\n]*|/\*.*?\*/)
|(?P<raw>r(?P<h>\#*)"(?P<rawbody>.*?)"(?P=h))
|(?P<str>"(?:\\.|[^"\\])*")
|(?P<char>'(?:\\x[0-9a-fA-F]{2}|\\u\{[0-9a-fA-F]+\}|\\.|[^'\\])')
|(?P<life>'[a-z_]+)
|(?P<float>\d[\d_]*\.\d+)
|(?P<int>0x[0-9a-fA-F_]+|\d[\d_]*)
|(?P<id>[A-Za-z_][A-Za-z0-9_]*)
|(?P<op>::|->|=>|==|!=|&&|\|\||\.\.|[-+*/%!&|=<>.,;:?()\[\]{}\#@$])
''', re.X | re.S)

def unescape(s):
    out, i = '', 0
    simple = {'n': '\n', 't': '\t', 'r': '\r', '0': '\0', '\\': '\\', '"': '"', "'": "'"}
    while i < len(s):
        c = s[i]
        if c != '\\': out += c; i += 1; continue
        d = s[i + 1]
        if d in simple: out += simple[d]; i += 2
        elif d == 'x': out += chr(int(s[i + 2:i + 4], 16)); i += 4
        elif d == 'u':
            j = s.index('}', i); out += chr(int(s[i + 3:j], 16)); i = j + 1
        elif d == '\n':
            i += 2
            while i < len(s) and s[i] in ' \t\r\n': i += 1
        else: raise ValueError(s[i:i + 5])
    return out

class Char(str): pass
class Con:
    def __init__(self, name, args): self.name, self.args = name, args
    def __repr__(self): return f'{self.name}{self.args}'

def lex(src):
    out, i = [], 0
    while i < len(src):
        m = TOK.match(src, i)
        if not m: raise SyntaxError(src[i:i + 40])
        i = m.end(); k = m.lastgroup
        if m['ws'] is not None: continue
        if m['raw'] is not None: out.append(('lit', m['rawbody']))
        elif m['str'] is not None: out.append(('lit', unescape(m['str'][1:-1])))
        elif m['char'] is not None: out.append(('lit', Char(unescape(m['char'][1:-1]))))
        elif m['life'] is not None: out.append(('op', 'life'))
        elif m['float'] is not None: out.append(('lit', float(m['float'].replace('_', ''))))
        elif m['int'] is not None: out.append(('lit', int(m['int'].replace('_', ''), 0)))
        elif m['id'] is not None: out.append(('id', m['id']))
        else: out.append(('op', m['op']))
    return out

# ---------------------------------------------------------------- parser: closures over env
class P:
    def __init__(self, toks): self.t, self.i = toks, 0
    def pk(self, n=0): return self.t[self.i + n] if self.i + n < len(self.t) else ('eof', '')
    def nx(self): x = self.pk(); self.i += 1; return x
    def at(self, v): return self.pk() == ('op', v)
    def atid(self, v): return self.pk() == ('id', v)
    def eat(self, v):
        if self.at(v): self.i += 1; return True
        return False
    def need(self, v):
        if not self.eat(v): raise SyntaxError((v, self.t[self.i - 5:self.i + 5]))
    def group(self):          # skip a balanced group
        o = self.nx()[1]; c = {'(': ')', '[': ']', '{': '}'}[o]; d = 1
        while d:
            x = self.nx()
            if x[0] == 'op' and x[1] in '([{': d += 1
            elif x[0] == 'op' and x[1] in ')]}': d -= 1
    def attrs(self):
        r = []
        while self.at('#'):
            self.nx(); self.eat('!'); s = self.i; self.group(); r.append(self.t[s + 1][1])
        return r
    def seq(self, close):
        xs = []
        while not self.eat(close):
            self.attrs(); xs.append(self.expr())
            if not self.eat(','): self.need(close); break
        return xs
    def block(self):
        self.need('{'); st = []; last = None
        while not self.eat('}'):
            self.attrs()
            if self.atid('let'):
                self.nx(); p = self.pat()
                if self.eat(':'):
                    while not self.at('='): self.nx()
                self.need('='); e = self.expr(); self.need(';'); st.append(('let', p, e)); last = None
            elif self.atid('for'):
                self.nx(); p = self.pat(); assert self.nx() == ('id', 'in'); e = self.expr(nostruct=True)
                b = self.block(); st.append(('for', p, e, b)); last = None
            elif self.eat(';'): last = None
            elif self.atid('_') and self.pk(1) == ('op', '='):
                self.nx(); self.nx(); e = self.expr(); st.append(('do', e)); self.need(';'); last = None
            else:
                e = self.expr()
                if self.eat(';'): st.append(('do', e)); last = None
                else: last = e; st.append(('do', e))
        def run(env):
            env = dict(env); v = None
            for s in st:
                v = None
                if s[0] == 'let': bind(s[1], s[2](env), env)
                elif s[0] == 'for':
                    for x in list(s[2](env)):
                        bind(s[1], x, env); s[3](env)
                else: v = s[1](env)
            return v if last is not None else None
        return run
    def pat(self):
        self.eat('&')
        if self.atid('mut'): self.nx()
        if self.eat('('):
            ps = []
            while not self.eat(')'):
                ps.append(self.pat()); self.eat(',')
            return ps
        return self.nx()[1]
    def expr(self, nostruct=False):
        a = self.mul(nostruct)
        while self.pk() in (('op', '+'), ('op', '-')):
            o = self.nx()[1]; b = self.mul(nostruct); a = self.bin(o, a, b)
        if self.at('..'):
            self.nx(); return a
        return a
    def bin(self, o, a, b):
        return {'+': lambda e: a(e) + b(e), '-': lambda e: a(e) - b(e), '*': lambda e: a(e) * b(e)}[o]
    def mul(self, ns):
        a = self.unary(ns)
        while True:
            if self.at('*'):
                self.nx(); b = self.unary(ns); a = self.bin('*', a, b)
            elif self.atid('as'):
                self.nx(); self.nx()
            else: return a
    def unary(self, ns):
        if self.eat('&'):
            if self.atid('mut'): self.nx()
            return self.unary(ns)
        if self.eat('&&'): return self.unary(ns)
        if self.eat('*'): return self.unary(ns)
        if self.eat('-'):
            a = self.unary(ns); return lambda e: -a(e)
        if self.eat('!'):
            a = self.unary(ns); return lambda e: not a(e)
        return self.post(self.prim(ns))
    def post(self, a):
        while True:
            if self.at('.'):
                self.nx(); n = self.nx()[1]
                if self.eat('('):
                    xs = self.seq(')'); a = self.meth(a, n, xs)
                else: a = (lambda a, n: lambda e: field(a(e), n))(a, n)
            elif self.at('['):
                self.nx(); lo = self.expr(); rng = self.t[self.i - 1] == ('op', '..'); self.need(']')
                a = (lambda a, lo, rng: (lambda e: a(e)[lo(e):]) if rng else (lambda e: a(e)[lo(e)]))(a, lo, rng)
            elif self.at('('):
                self.nx(); xs = self.seq(')')
                a = (lambda a, xs: lambda e: a(e)(*[x(e) for x in xs]))(a, xs)
            elif self.at('?'): self.nx()
            else: return a
    def meth(self, a, n, xs):
        def run(e):
            v = a(e); ys = [x(e) for x in xs]
            if n in ('into', 'clone', 'to_string', 'as_str', 'iter', 'into_iter', 'to_vec', 'unwrap', 'alloc'):
                return ys[0] if n == 'alloc' else v
            if n == 'len': return len(v.encode()) if isinstance(v, str) else len(v)
            if n == 'plus': return pos(v.args['line'], v.args['char'] + ys[0])
            if n == 'extend': v.extend(ys[0]); return None
            if n == 'push': v.append(ys[0]) if isinstance(v, list) else None; return None
            if n == 'repeat': return v * ys[0]
            if n == 'trim': return v.strip()
            raise KeyError(n)
        return run
    def closure(self):
        ps = []
        if not self.eat('||'):
            self.need('|')
            while not self.eat('|'):
                ps.append(self.pat()); self.eat(',')
        body = self.block() if self.at('{') else self.expr()
        def mk(e):
            def f(*vs):
                env = dict(e)
                for p, v in zip(ps, vs): bind(p, v, env)
                return body(env)
            return f
        return mk
    def prim(self, ns):
        k, v = self.pk()
        if k == 'lit': self.nx(); return lambda e: v
        if self.at('|') or self.at('||'): return self.closure()
        if self.at('('):
            self.nx(); xs = self.seq(')')
            if len(xs) == 1 and self.t[self.i - 2] != ('op', ','): return xs[0]
            return lambda e: tuple(x(e) for x in xs)
        if self.at('['):
            self.nx(); xs = self.seq(']'); return lambda e: [x(e) for x in xs]
        if self.at('{'): return self.block()
        if k == 'id':
            if v == 'unsafe': self.nx(); return self.block()
            path = [self.nx()[1]]
            while self.at('::'):
                self.nx()
                if self.eat('<'):
                    d = 1
                    while d:
                        x = self.nx()
                        if x == ('op', '<'): d += 1
                        elif x == ('op', '>'): d -= 1
                else: path.append(self.nx()[1])
            if self.at('!') and self.pk(1)[1] in ('(', '[', '{') and self.pk(1)[0] == 'op':
                self.nx(); return self.macro(path[-1])
            if self.at('{') and not ns and path[-1][0].isupper():
                self.nx(); fs = {}
                while not self.eat('}'):
                    self.attrs()
                    n = self.nx()[1]
                    if self.eat(':'): fs[n] = self.expr()
                    else: fs[n] = (lambda n: lambda e: e[n])(n)
                    self.eat(',')
                name = path[-1]
                return lambda e: Con(name, {n: f(e) for n, f in fs.items()})
            return lambda e: lookup(path, e)
        raise SyntaxError(self.t[self.i - 5:self.i + 8])
    def macro(self, n):
        o = self.nx()[1]; c = {'(': ')', '[': ']', '{': '}'}[o]
        if n in ('vec', 'onevec'):
            xs = self.seq(c); return lambda e: [x(e) for x in xs]
        if n == 'bvec':
            assert self.nx() == ('id', 'in'); self.expr(); self.need(';')
            xs = self.seq(c); return lambda e: [x(e) for x in xs]
        if n == 'format':
            xs = self.seq(c)
            def run(e):
                f = xs[0](e); ys = [x(e) for x in xs[1:]]
                f = re.sub(r'\{\}', lambda m: str(ys.pop(0)), f)
                return re.sub(r'\{(\w+)\}', lambda m: str(e[m[1]]), f)
            return run
        if n == 'v':           # v!(major, minor, patch - "pre" + "meta")
            nums = [self.nx()[1]]; self.need(','); nums.append(self.nx()[1]); self.need(',')
            nums.append(self.nx()[1]); pre = meta = ''
            if self.eat('-'): pre = self.nx()[1]
            if self.eat('+'): meta = self.nx()[1]
            self.need(c)
            return lambda e: Con('Version', dict(major=nums[0], minor=nums[1], patch=nums[2], pre=pre, meta=meta))
        # assertions that are not about a value of the model
        self.i -= 1; self.group(); return lambda e: None

def bind(p, v, env):
    if isinstance(p, list):
        for q, w in zip(p, v): bind(q, w, env)
    else: env[p] = v
def field(v, n): return v.args[n] if isinstance(v, Con) else v[int(n)]

# ---------------------------------------------------------------- constructors and helpers of the tests
def pos(l, c): return Con('Pos', dict(line=l, char=c))
def span(a, b): return Con('Span', dict(start=a, end=b))
def fpl(p, n): return span(p, pos(p.args['line'], p.args['char'] + n))
def ident(lit, s): return Con('Ident', dict(lit=lit, lit_start=s.args['start'], text=lit,
                              text_start_offset=0, text_end_offset=0, kind=Con('Plain', [])))
def offs(a, b): return Con('TextOffset', dict(start_line=0, start_char=a, end_line=0, end_char=b))
def lineoffs(a, b, c, d): return Con('TextOffset', dict(start_line=a, start_char=b, end_line=c, end_char=d))
def rng(i, n, lv): return Con('CommentRange', dict(start=i, len=n, level=lv))
def blen(s): return len(s.encode())
def a_(l, c, i, v):
    s = fpl(pos(l, c), blen(i)); e = s.args['end']
    return Con('Assignment', dict(key=Con('One', [ident(i, s)]), eq=pos(l, e.args['char'] + 1), val=v))
def vp(l, c, i): return pos(l, c + blen(i) + 3)
def int_(l, c, t): return Con('Int', [Con('IntVal', dict(lit=t, lit_span=fpl(pos(l, c), blen(t)), val=int(t.replace('_', ''))))])
def bool_(l, c, v): return Con('Bool', [Con('BoolVal', dict(lit_span=fpl(pos(l, c), 4 if v else 5), val=v))])
def ainvalid(l, c, i, v): return a_(l, c, i, Con('Invalid', [v, fpl(vp(l, c, i), blen(v))]))
def aint(l, c, i, t): return a_(l, c, i, int_(l, c + blen(i) + 3, t))
def afloat(l, c, i, t): return a_(l, c, i, Con('Float', [Con('FloatVal', dict(lit=t, lit_span=fpl(vp(l, c, i), blen(t)), val=float(t.replace('_', ''))))]))
def abool(l, c, i, v): return a_(l, c, i, bool_(l, c + blen(i) + 3, v))
def astring(l, c, i, lit, q):
    t = lit.lstrip("'"); so = len(lit) - len(t); t = t.rstrip("'"); eo = len(lit) - len(t) - so
    return a_(l, c, i, Con('String', [Con('StringVal', dict(lit_span=fpl(vp(l, c, i), blen(lit)), lit=lit, text=t, text_offset=offs(so, eo), quote=q))]))
def twrap(cs, lv, x): return Con('ToplevelAssignment', dict(comments=rng(len(cs), 0, lv), assignment=x))
def t_(f): return lambda cs, lv, l, *r: twrap(cs, lv, f(l, 0, *r))
def build(st, lv, cs):
    r = rng(len(st), len(cs), lv); st.extend(cs); return r
def off(base, p): return None if p is None else p.args['char'] - base.args['char']
FN = {
 'Pos::new': pos, 'Span::new': span, 'Span::from_pos_len': fpl, 'Span::pos': lambda p: span(p, p),
 'Pos::ZERO': pos(0, 0), 'pos': lambda c: pos(0, c), 'Offset::new': lambda c: c,
 'Ident::from_plain_lit': ident, 'TextOffset::chars': offs, 'TextOffset::new': lineoffs,
 'CommentRange::new': rng, 'CommentId': lambda n: n, 'ParentId': lambda n: n,
 'LiteralId': lambda n: n, 'StringId': lambda n: n, 'FmtChar': lambda c: c, 'ROOT_PARENT': 4294967295,
 'Some': lambda x: x, 'None': None, 'true': True, 'false': False, 'Box::new': lambda x: x,
 'a': a_, 'int': int_, 'bool': bool_, 'ainvalid': ainvalid, 'aint': aint, 'afloat': afloat,
 'abool': abool, 'astring': astring, 'twrap': twrap, 'ta': t_(a_), 'tainvalid': t_(ainvalid),
 'taint': t_(aint), 'tafloat': t_(afloat), 'tabool': t_(abool), 'tastring': t_(astring),
 'empty_comments': lambda cs, lv: rng(len(cs), 0, lv), 'build_comments': build,
 'BVec::new_in': lambda b: [], 'Bump::new': lambda: 'bump', 'MapInner::from_iter': lambda x: Con('Map', list(x)),
 'MapInner::new': lambda: Con('Map', []), 'MapTable::from_pairs': lambda x: Con('Map', list(x)),
 'MapTable::new': lambda: Con('Map', []),
 'MapTableEntry::from_one': lambda n, r: Con('Entry', dict(node=n, reprs=[r])),
 'MapTableEntry::new': lambda n, r: Con('Entry', dict(node=n, reprs=r)),
 'MapTableEntryRepr::new': lambda p, k, d: Con('Repr', dict(parent=p, key=k, kind=d)),
 'MapArrayInline::from_iter': lambda p, r, xs: Con('MapArrayInline', dict(parent=p, repr=r, inner=xs)),
 'MapArrayInlineEntry::new': lambda n, r: Con('InlineEntry', dict(node=n, repr=r)),
 'TableHeader::new': lambda l, k, r: Con('TableHeader', dict(l_par=l, key=k, r_par=r)),
 'ArrayHeader::new': lambda l, k, r: Con('ArrayHeader', dict(l_pars=l, key=k, r_pars=r)),
 'Date::new': lambda *x: Con('Date', list(x)), 'Time::new': lambda *x: Con('Time', list(x)),
 'InlineStr::new_unchecked': lambda s: s, 'Prerelease::EMPTY': '', 'BuildMetadata::EMPTY': '',
}
cases = []
where = ['']
def case(kind, input, *exp): cases.append((where[0], kind, input, exp))
def lexcheck(i, t, *e): case('lex', i, t, list(e))
def strcheck(i, l, t, *e): case('str', i, l, t, list(e))
def asts(b, *e):
    st = []; r = b('bump', st); return dict(asts=r, comments=st)
HELP = {
 'lex': {'check': lexcheck, 'check_error': lexcheck, 'check_str': strcheck, 'check_str_error': strcheck},
 'parse': {'check': lambda i, b, *e: case('parse', i, asts(b), list(e)),
           'check_comments': lambda i, b: case('parse', i, asts(b), []),
           'check_error': lambda i, b, *e: case('parse', i, asts(b), list(e)),
           'check_simple': lambda i, m: case('simple', i, m, []),
           'check_simple_error': lambda i, m, e: case('simple', i, m, [e]),
           'parse_simple': lambda i: (None, i)},
 'semver': {'check_version': lambda i, v: case('version', i, v),
            'check_version_display': lambda i: case('vdisplay', i, i.strip()),
            'check_version_error': lambda i, e: case('verr', i, e),
            'check_req': lambda i, cs: case('req', i, Con('VersionReq', dict(pos=pos(0, 0), len=blen(i), comparators=cs))),
            'check_req_display': lambda i: case('rdisplay', i, i, i.strip()),
            'check_req_error': lambda i, e: case('rerr', i, e),
            'req': lambda s: (case('reqok', s), s)[1],
            'assert_match_all': lambda r, vs: [case('match', r + '\n' + v, True) for v in vs],
            'assert_match_none': lambda r, vs: [case('match', r + '\n' + v, False) for v in vs]},
}
HELP['map'] = dict(HELP['parse'], check=lambda i, m: case('map', i, m, []),
                   check_error=lambda i, m, e: case('map', i, m, [e]))

def lookup(path, e):
    if len(path) == 1 and path[0] in e: return e[path[0]]
    two = '::'.join(path[-2:])
    if two in FN: return FN[two]
    if len(path) == 1 and path[0] in FN: return FN[path[0]]
    n = path[-1]
    if n[0].isupper(): return C(n)
    raise KeyError(path)
class C(Con):                       # an enum constructor, with or without arguments
    def __init__(self, n): super().__init__(n, [])
    def __call__(self, *xs): return Con(self.name, list(xs))

def tests(file, kind):
    p = P(lex(open(R + file).read()))
    while p.pk()[0] != 'eof':
        at = p.attrs()
        if p.atid('pub'): p.nx()
        if p.atid('fn'):
            p.nx(); name = p.nx()[1]
            if at and at[-1] == 'test' or 'test' in at:
                p.need('('); p.need(')')
                b = p.block(); where[0] = f'{file}::{name}'
                b(dict(HELP[kind]))
            else:
                while not p.at('{'): p.nx()
                p.group()
        elif p.atid('macro_rules'):
            p.nx(); p.need('!'); p.nx(); p.group()
        else:
            while not p.eat(';'): p.nx()

def index_test():                   # the one assertion about a value, in ide/src/index/test.rs
    src = open(R + 'ide/src/index/test.rs').read()
    p = P(lex(src[src.index('&Version {'):]))
    env = {'semver_version': lambda t: t, 'semver_req': lambda t: t, 'feat': lambda n, ms: (n, ms),
           'feat_members': lambda ms: ms, 'dep_feats': lambda ms: ms}
    FN['IndexMap::from_iter'] = FN['MapInner::from_iter']
    where[0] = 'ide/src/index/test.rs::diesel_index'
    case('index', open(R + 'ide/tests/diesel_index.json').read(), 'diesel', p.expr()(env))

def js(v):
    if isinstance(v, Con):
        if v.name == 'Map': return {'_': 'Map', 'kv': [[k, js(x)] for k, x in v.args]}
        if isinstance(v.args, dict): return dict({'_': v.name}, **{k: js(x) for k, x in v.args.items()})
        return [v.name] + [js(x) for x in v.args]
    if isinstance(v, (list, tuple)): return ['list'] + [js(x) for x in v]
    if isinstance(v, dict): return {k: js(x) for k, x in v.items()}
    if isinstance(v, float): return {'_': 'f', 't': v.hex()}
    return v

def norm(v):                        # what the model prints
    if isinstance(v, dict):
        if v.get('_') == 'f': return {'_': 'f', 't': float(v['t']).hex()}
        if v.get('_') == 'Map' : return {'_': 'Map', 'kv': sorted([[k, norm(x)] for k, x in v['kv']], key=lambda x: x[0])}
        return {k: norm(x) for k, x in v.items()}
    if isinstance(v, list): return [norm(x) for x in v]
    return v
def normE(v):
    if isinstance(v, dict):
        if v.get('_') == 'Map': return {'_': 'Map', 'kv': sorted([[k, normE(x)] for k, x in v['kv']], key=lambda x: x[0])}
        return {k: normE(x) for k, x in v.items()}
    if isinstance(v, list): return [normE(x) for x in v]
    return v

DUMP = open(os.path.join(here, 'dump.lean.txt')).read()

if __name__ == '__main__':
    tests('toml/src/lex/test.rs', 'lex')
    tests('toml/src/parse/test.rs', 'parse')
    tests('toml/src/map/test.rs', 'map')
    tests('semver/src/parse/test.rs', 'semver')
    tests('semver/src/test.rs', 'semver')
    index_test()
    with tempfile.TemporaryDirectory() as d:
        open(d + '/Run.lean', 'w').write(DUMP)
        for i, (w, k, inp, exp) in enumerate(cases):
            open(f'{d}/{i}.in', 'w', newline='').write(inp)
        open(d + '/list', 'w').write(''.join(f'{k} {d}/{i}\n' for i, (w, k, inp, exp) in enumerate(cases)))
        subprocess.run(['lake', 'env', 'lean', '--run', d + '/Run.lean', d + '/list'], cwd=lean, check=True)
        bad = 0
        for i, (w, k, inp, exp) in enumerate(cases):
            got = norm(json.loads(open(f'{d}/{i}.out').read()))
            want = normE(['list'] + [js(x) for x in exp])
            if got != want:
                bad += 1
                print('DIFFERS', w, k, repr(inp)[:300]); print('  test :', json.dumps(want)[:1500]); print('  model:', json.dumps(got)[:1500])
    kinds = {}
    for c in cases: kinds[c[1]] = kinds.get(c[1], 0) + 1
    print(len(cases) - bad, 'of', len(cases), 'unit test cases agree', kinds)
    sys.exit(1 if bad else 0)
