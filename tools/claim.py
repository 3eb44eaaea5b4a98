import json,sys
# usage: claim.py ID status note thm...
p='/verif/tools/claims.json'
c=json.load(open(p))
i,st,note,*th=sys.argv[1:]
c[i]={"status":st,"theorems":th,"note":note}
c=dict(sorted(c.items()))
json.dump(c,open(p,'w'),indent=1)
