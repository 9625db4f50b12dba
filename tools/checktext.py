"""Compares the constants of lean/Verif/Model/PegText.lean and the texts of lean/Verif/Spec/Readme*.lean with the
sources in /repo."""
import re, os
root = os.path.join(os.path.dirname(os.path.abspath(__file__)), '..')
s = open(os.path.join(root, 'lean/Verif/Model/PegText.lean')).read()
un = lambda x: re.sub(r'\\(.)', lambda m: {'n': '\n', 'r': '\r', 't': '\t'}.get(m.group(1), m.group(1)), x)
a, b = s.split('def tableSource')
strs = lambda t: [un(m) for m in re.findall(r'^  c!"((?:[^"\\]|\\.)*)"', t, re.M)]
text = ''.join(strs(a))
src = open('/repo/src/peg/peg2code.rs').read()
i = src.index('r#"') + 3
assert src[i:i + len(text)] == text and src[i + len(text):].startswith('"#\n}')
lines = open('/repo/src/peg/rules.rs').read().split('\n')[4:37]
assert strs(b) == [re.sub(r'^\s*,?\s*', '', x) for x in lines]
body = open('/repo/src/peg/rules.rs').read()
body = body[body.index('rules!(') + len('rules!('):]
pasted = '\n         ' + '\n       , '.join(strs(b)) + '\n\n  '
assert body.startswith(pasted + ')\n}')
readme = open('/repo/README.md').read()
n = 0
copies = ''.join(open(os.path.join(root, 'lean/Verif/Spec', f)).read() for f in ('Readme.lean', 'ReadmeRules.lean'))
for m in re.finditer(r'README.md:(\d+)-(\d+),.*?:=\n(.*?)\n\n', copies, re.S):
    l1, l2, t = int(m.group(1)), int(m.group(2)), ''.join(strs(m.group(3)))
    i = len(''.join(readme.splitlines(True)[:l1 - 1]))
    j = len(''.join(readme.splitlines(True)[:l2]))
    assert t in readme[i:j], l1
    n += 1
assert n == 35
print('ok')
