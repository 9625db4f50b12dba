"""Writes lean/Verif/Spec/SelfDoc.lean and lean/Verif/Spec/Readme.lean: the text of src/peg/peg2code.rs and
some texts of README.md as documents of the concrete syntax. Nothing about this script is trusted:
Props/SelfHost.lean and Props/Readme.lean prove that the documents are well formed and have these texts."""
import re, os
root = os.path.join(os.path.dirname(os.path.abspath(__file__)), '..')
src = open('/repo/src/peg/peg2code.rs').read()
text = src[src.index('r#"') + 3:]
text = text[:text.index('"#')]
while True:  # the raw string ends at the first `"#` that is followed by a line with `}`
    i = len(text)
    rest = src[src.index('r#"') + 3 + i + 2:]
    if rest.lstrip().startswith('}'):
        break
    j = rest.index('"#')
    text = text + '"#' + rest[:j]
pos = 0
def ch(c): return "'" + {'\n': '\\n', '\r': '\\r', '\t': '\\t', "'": "\\'", '\\': '\\\\'}.get(c, c) + "'"
def st(s): return 'c!"' + s.replace('\\', '\\\\').replace('"', '\\"').replace('\n', '\\n') + '"'
def gap():
    global pos
    t = text[pos:]
    if t.startswith(' '): pos += 1; return '.sp'
    if t.startswith('\n'): pos += 1; return '.eol .lf'
    if t.startswith('//'):
        n = t.index('\n'); pos += n + 1
        return '.line %s .lf' % st(t[2:n])
    if t.startswith('/*'):
        n = t.index('*/', 2); pos += n + 2
        return '.multi %s' % st(t[2:n])
    return None
def gaps():
    r = []
    while True:
        g = gap()
        if g is None: return r
        r.append(g)
def gl(gs):
    """long runs of spaces are written with replicate"""
    out, i = [], 0
    while i < len(gs):
        j = i
        while j < len(gs) and gs[j] == '.sp': j += 1
        if j - i > 2: out.append('sps %d' % (j - i)); i = j
        else:
            k = i
            while k < len(gs) and not (gs[k:k+3] == ['.sp'] * 3): k += 1
            out.append('[' + ', '.join(gs[i:k]) + ']'); i = k
    return '(' + ' ++ '.join(out) + ')' if len(out) > 1 or (out and out[0].startswith('sps')) else (out[0] if out else '[]')
SYM = r'[_a-zA-Z0-9][_\'"a-zA-Z0-9]*'
NAME = r'\.?' + SYM + r'(?:\.' + SYM + ')*'
def name():
    global pos
    m = re.compile(NAME).match(text, pos)
    if not m: return None
    pos = m.end(); return m.group(0)
def lit():
    global pos
    if text[pos] == "'":
        n = text.index("'", pos + 1); b = text[pos + 1:n]; pos = n + 1
        return '.single ' + st(b)
    assert text[pos] == '"'; pos += 1; ps = []
    while text[pos] != '"':
        if text[pos] == '\\':
            e = text[pos + 1]; pos += 2
            if e == '0':
                ps.append('.hex %s %s' % (ch(text[pos + 1]), ch(text[pos + 2]))); pos += 3; continue
            ps.append('.esc .' + {'r': 'cr', 'n': 'nl', 't': 'tab', '\\': 'bs', '"': 'dq'}[e])
        else: ps.append('.plain ' + ch(text[pos])); pos += 1
    pos += 1
    return '.double [' + ', '.join(ps) + ']'
def atom():
    global pos
    c = text[pos]
    if c in '\'"': return '.lit (%s)' % lit()
    if c == '[':
        pos += 1; cs = ''
        while text[pos] != ']' and text[pos + 1] != '-': cs += text[pos]; pos += 1
        rs = []
        while text[pos] != ']': rs.append('(%s, %s)' % (ch(text[pos]), ch(text[pos + 2]))); pos += 3
        pos += 1
        return '.cls %s [%s]' % (st(cs), ', '.join(rs))
    if c == '(':
        pos += 1; g1 = gaps(); e = alt(); g2 = gaps(); assert text[pos] == ')'; pos += 1
        return '.par %s (%s) %s' % (gl(g1), e, gl(g2))
    n = name()
    if n: return '.ref ' + st(n)
    assert c == '.', text[pos:pos+40]; pos += 1
    return '.dot'
def item():
    global pos
    if text[pos] == '!': pos += 1; return '.not (%s)' % atom()
    a = atom()
    if text[pos] in '*+?':
        k = {'*': 'star', '+': 'plus', '?': 'opt'}[text[pos]]; pos += 1
        return '.%s (%s)' % (k, a)
    return '.plain (%s)' % a
def err():
    global pos
    m = re.compile(r'error *\( *[\'"]').match(text, pos)
    if not m: return None
    pos += 5; g1 = gaps(); pos += 1; g2 = gaps(); l = lit(); g3 = gaps(); assert text[pos] == ')'; pos += 1
    return '%s %s (%s) %s' % (gl(g1), gl(g2), l, gl(g3))
def seq():
    e = err()
    if e: return '.err ' + e
    i = item()
    return '.item (%s) %s' % (i, tail())
def tail():
    global pos
    p = pos; g = gaps()
    if g and pos < len(text) and text[pos] not in '/)}' :
        q = pos
        n = name()
        if n:
            gaps()
            if pos < len(text) and text[pos] in '={':
                pos = p; return '.nil'
        pos = q
        e = err()
        if e: return '(.err %s %s %s)' % (gl(g), e, tail())
        i = item()
        return '(.item %s (%s) %s)' % (gl(g), i, tail())
    pos = p
    return '.nil'
def alt():
    global pos
    s = seq(); p = pos; g1 = gaps()
    if pos < len(text) and text[pos] == '/' :
        pos += 1; g2 = gaps(); a = alt()
        return '.cons (%s) %s %s (%s)' % (s, gl(g1), gl(g2), a)
    pos = p
    return '.one (%s)' % s
def document(t):
    """the blanks before the first rule, the rules"""
    global pos, text
    text, pos = t, 0
    before = gaps(); rules = []
    while pos < len(text):
        n = name(); g1 = gaps(); assert text[pos] == '='; pos += 1; g2 = gaps(); e = alt()
        t = gaps(); k = next(i for i, g in enumerate(t) if g == '.eol .lf')
        rules.append('.rule %s %s %s (%s) ⟨%s, .lf, %s⟩' % (st(n), gl(g1), gl(g2), e, gl(t[:k]), gl(t[k + 1:])))
    return before, rules
before, rules = document(text)
out = ['/-', 'The PEG grammar of PEG, src/peg/peg2code.rs:26-111, as a document of the concrete syntax (written by',
       'tools/gendoc.py; Props/SelfHost.lean proves that it is the text of the source).', '-/', 'import Verif.Spec.PegSyntax', '',
       'namespace DP.Spec.Syntax', '', '/-- spaces -/', 'def sps (n : Nat) : Gaps := List.replicate n .sp', '',
       '/-- the rules in the order of the text -/', 'def selfRules : List Def := [']
out.append(',\n'.join('  ' + r for r in rules) + ']')
out += ['', 'def defsOf (d : Def) : List Def → Defs', '  | [] => .one d', '  | d\' :: ds => .cons d (defsOf d\' ds)', '',
        'def selfDoc : Doc :=', '  match selfRules with', '  | [] => ⟨[], .one (.rule [] [] [] (.one (.err [] [] (.single []) [])) ⟨[], .lf, []⟩)⟩',
        '  | d :: ds => ⟨%s, defsOf d ds⟩' % gl(before), '', 'end DP.Spec.Syntax', '']
open(os.path.join(root, 'lean/Verif/Spec/SelfDoc.lean'), 'w').write('\n'.join(out))
print(len(rules))

readme = open('/repo/README.md').read()
def between(a, b, start):
    i = readme.index(start); i = readme.index(a, i) + len(a); j = readme.index(b, i)
    return readme[:i].count('\n') + 1, readme[:j].count('\n') + 1, readme[i:j]
TEXTS = [
  ('basic', 'the basic example', between('r#"', '"#', '### Just from peg\n')),
  ('second', 'the second example', between('r#"', '"#', '### Just from peg 2')),
  ('calculator', 'the calculator', between('r#"', '"#', '### Calculator example')),
  ('hello', 'the note about `or`', between('`or`\n\n', '\nGiven', 'An important note')),
  ('untilA', 'negation', between('```peg\n', '```', '\nNegation\n')),
  ('plain', 'priority', between('```peg\n', '```', 'Next grammar:')),
  ('grouped', 'priority', between('```peg\n', '```', "It's equivalent to:")),
  ('regrouped', 'priority', between('```peg\n', '```', 'But not to:')),
  ('unbalanced', 'a message of one\'s own', between('r#"', '"#', 'Full exmample')),
]
out = ['/-', 'Texts of README.md, and the same texts as documents of the concrete syntax (written by tools/gendoc.py;',
       'Props/Readme.lean proves that the documents have these texts).', '-/', 'import Verif.Spec.SelfDoc', '', 'namespace DP.Spec.Readme', 'open Syntax', '']
for n, c, (l1, l2, t) in TEXTS:
    b, r = document(t)
    out += ['/-- README.md:%d-%d, %s -/' % (l1, l2, c), 'def %s : Str :=' % n,
            '  ' + ' ++\n  '.join(st(l) for l in t.splitlines(True)), '',
            'def %sDoc : Doc :=' % n,
            '  ⟨%s, defsOf (%s) [' % (gl(b), r[0]),
            ',\n'.join('    ' + x for x in r[1:]) + '    ]⟩', '']
out += ['end DP.Spec.Readme', '']
open(os.path.join(root, 'lean/Verif/Spec/Readme.lean'), 'w').write('\n'.join(out))

lines = readme.splitlines(True)
def block(k, n=None):
    """the lines from `k` to the end of the block, or `n` lines"""
    m = next(i for i in range(k, len(lines)) if lines[i].strip() == '```') if n is None else k - 1 + n
    return k, m, ''.join(lines[k - 1:m])
TEXTS = [
  ('helloWorld', 'a literal', block(495)), ('newline', 'escapes', block(509, 1)), ('hexChar', 'escapes', block(511, 1)),
  ('newlineApart', 'escapes', block(513, 1)), ('hexApart', 'escapes', block(515, 1)), ('apostrophe', 'quotes', block(521, 1)),
  ('quote', 'quotes', block(523, 1)), ('concat', 'concatenation', block(532)), ('refer', 'references', block(540)),
  ('two', 'or', block(547)), ('three1', 'or multiline', block(553)), ('three2', 'or multiline 2', block(562)),
  ('three3', 'or disorganized', block(570)), ('par1', 'parenthesis', block(590)), ('par2', 'multiline 1', block(598)),
  ('par3', 'multiline 2', block(605)), ('par4', 'multiline 3', block(613)), ('organized', 'multiline organized', block(622)),
  ('optional', 'one optional', block(629)), ('repetitions', 'repetitions', block(635)), ('comment', 'consume till', block(653)),
  ('recursion', 'simple recursion', block(679)), ('matchPar', 'recursion to match parenthesis', block(691)),
  ('parenthesised', 'errors', block(732)),
]
REFUSED = [('classes', 'match a set of chars', block(666)), ('atoms', 'atoms', block(858))]
out = ['/-', 'The grammars of README.md under "Rules by example" and after it, and those that are accepted as documents of the',
       'concrete syntax (written by tools/gendoc.py; Props/Example.lean proves that the documents have these texts).', '-/',
       'import Verif.Spec.SelfDoc', '', 'namespace DP.Spec.Readme', 'open Syntax', '']
for n, c, (l1, l2, t) in TEXTS + REFUSED:
    out += ['/-- README.md:%d-%d, %s -/' % (l1, l2, c), 'def %s : Str :=' % n,
            '  ' + ' ++\n  '.join(st(l) for l in t.splitlines(True)), '']
    if (n, c, (l1, l2, t)) in REFUSED: continue
    b, r = document(t)
    out += ['def %sDoc : Doc :=' % n, '  ⟨%s, defsOf (%s) [' % (gl(b), r[0]),
            ',\n'.join('    ' + x for x in r[1:]) + ']⟩', '']
out += ['end DP.Spec.Readme', '']
open(os.path.join(root, 'lean/Verif/Spec/ReadmeRules.lean'), 'w').write('\n'.join(out))
