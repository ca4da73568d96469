"""usage: st.py C25 proved "note" """
import json,sys,os
p=os.path.join(os.path.dirname(__file__),'status.json')
d=json.load(open(p))
d[sys.argv[1]]=[sys.argv[2],sys.argv[3] if len(sys.argv)>3 else ""]
d=dict(sorted(d.items()))
json.dump(d,open(p,'w'),indent=0)
