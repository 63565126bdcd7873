#!/usr/bin/env python3
"""Regenerates the generated parts of the documentation: MODEL_INDEX.md (what each definition of the model cites) and AXIOMS.md.
usage: tools/design.py [output of `lake env lean` on the #print axioms file]"""
import re,glob,os,json,sys,collections
root=os.path.dirname(os.path.dirname(os.path.abspath(__file__)))
out=["# Index of the model: every definition and the code it cites","",
"Generated by `tools/design.py` from the comments of `lean/Verif/*/Model*.lean`. Paths are relative to `/repo`; what is simplified is said in the comment of the definition itself.",""]
for area in sorted(os.listdir(root+'/lean/Verif')):
    fs=sorted(glob.glob(f'{root}/lean/Verif/{area}/Model*.lean'))
    if not fs: continue
    out+=[f"## {area}","","| definition | cites |","|---|---|"]
    for f in fs:
        s=open(f).read()
        for m in re.finditer(r'/--(.*?)-/\s*(?:@\[[^\]]*\]\s*)*(?:private |protected |noncomputable |partial )*(def|structure|inductive|abbrev)\s+([\w.«»]+)',s,re.S):
            doc=' '.join(m.group(1).split())
            cites=re.findall(r'(?:(?:src|include|deps)/)?[\w/\-]+\.[ch](?::?\s?\d+(?:[-–]\d+)?(?:,\s?\d+(?:[-–]\d+)?)*)?',doc)
            out.append(f"| `{m.group(3)}` | {'; '.join(cites) if cites else '(auxiliary)'} |")
    out.append("")
open(root+'/MODEL_INDEX.md','w').write('\n'.join(out))
if len(sys.argv)>1:
    g=collections.OrderedDict()
    for l in open(sys.argv[1]):
        m=re.match(r"'([^']+)' (?:depends on axioms: \[(.*)\]|does not depend on any axioms)",l)
        assert m,l
        g.setdefault(m.group(2) or 'none',[]).append(m.group(1))
    o=["# Axioms of each theorem in the manifest","","Output of `#print axioms`, grouped. No other axiom occurs.",""]
    for k,v in sorted(g.items(),key=lambda x:len(x[0])):
        o+=[f"## {k} ({len(v)} theorems)","",', '.join('`'+x.replace('Verif.','')+'`' for x in v),""]
    open(root+'/AXIOMS.md','w').write('\n'.join(o))
