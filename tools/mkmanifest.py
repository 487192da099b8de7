# Generates /verif/MANIFEST.json from the table below and the theorem names found in lean/Verif/Props.
# A theorem named Cxx_... (or Cxx_Cyy_...) supports property Cxx (and Cyy). Status/notes are listed here.
import json,re,glob,os
root=os.path.dirname(os.path.dirname(os.path.abspath(__file__)))
props=[json.loads(l) for l in open(root+'/properties.jsonl')]
ths={}
for f in sorted(glob.glob(root+'/lean/Verif/Props/*.lean')):
    ns=[]
    for line in open(f):
        m=re.match(r'namespace\s+(\S+)',line)
        if m: ns.append(m.group(1))
        m=re.match(r'end\s+(\S+)',line)
        if m and ns and ns[-1]==m.group(1): ns.pop()
        m=re.match(r'(?:@\[[^\]]*\]\s*)?theorem\s+(C\d\d\d?_\S+)',line)
        if m:
            name='.'.join(ns+[m.group(1)])
            for c in re.findall(r'(?<![0-9A-Za-z])C\d\d\d?(?=_)',m.group(1)):
                ths.setdefault(c,[]).append(name)
status=json.load(open(root+'/tools/status.json'))
claims=[]
for p in props:
    c=p['id']; st=status.get(c)
    if st is None:
        if c in ths: st={"status":"proved","note":""}
        else: continue
    claims.append(dict(property=c,status=st['status'],theorems=ths.get(c,[]),note=st.get('note','')))
json.dump({"claims":claims},open(root+'/MANIFEST.json','w'),indent=1,ensure_ascii=False)
print({k:sum(1 for c in claims if c['status']==k) for k in ('proved','partial','not_applicable')}, 'missing:',[p['id'] for p in props if p['id'] not in [c['property'] for c in claims]])
