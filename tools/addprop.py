"""Append a property to props.py (helper): reads python source of p(...) calls from stdin."""
import sys
f='/verif/tools/props.py'
s=open(f).read()
i=s.index('open("/verif/properties.jsonl"')
open(f,'w').write(s[:i]+sys.stdin.read()+s[i:])
