#!/usr/bin/env python3
"""Print the statements (no proofs) of the property theorems: stmts.py FILE..."""
import sys,re
for f in sys.argv[1:]:
    s=open(f).read()
    for m in re.finditer(r'(/--(?:(?!-/).)*-/\n)?((?:open Classical in\n|omit .* in\n)*theorem C\d\d.*?):= by|(/--(?:(?!-/).)*-/\n)(?:noncomputable )?((?:def|structure) Spec\..*?)(?=\n\n)',s,re.S):
        print((m.group(1) or m.group(3) or '')+(m.group(2) or m.group(4)).strip()+'\n')
