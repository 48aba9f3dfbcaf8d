"""Texts copied into the model are substrings of the file their comment names. Run with the paths of /repo and /verif."""
import re, sys, glob, os
repo, verif = (sys.argv[1:] + ['/repo', '/verif'])[:2]
UN = {'n': '\n', 't': '\t', 'r': '\r', '\\': '\\', '"': '"'}
def unesc(s): return re.sub(r'\\(.)', lambda m: UN[m[1]], s)
good = bad = 0
for f in sorted(glob.glob(verif + '/lean/Verif/**/*.lean', recursive=True)):
    src = open(f).read()
    for m in re.finditer(r'/--((?:(?!-/).)*?)-/\s*def (\w+) : Str := \[\n((?:  c!"(?:\\.|[^"\\])*",?\n?)*(?:  c!"(?:\\.|[^"\\])*"))\]\.flatten', src, re.S):
        files = re.findall(r'[\w./-]+\.(?:rs|txt|md)', m[1])
        text = ''.join(unesc(x) for x in re.findall(r'c!"((?:\\.|[^"\\])*)"', m[3]))
        hit = [g for g in files if os.path.exists(repo + '/' + g) and text in open(repo + '/' + g).read()]
        if hit: good += 1
        else: bad += 1; print('NOT FOUND', os.path.basename(f), m[2], files)
print(good, 'texts found,', bad, 'not')
