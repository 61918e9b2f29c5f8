"""Compares the Lean model of argparse (Verif.Model.Argv) with Python's own argparse on random command lines.

Evidence for the transcription only; no theorem rests on it. The parsers are rebuilt here from the add_argument calls of
the scripts, nothing of /repo is run. Run from /verif after `lake build`: python3 tools/argparse_check.py
"""
import pathlib,tempfile
DRIVER=r'''
import Verif.Model.Argv
open Verif Argv
def tx (s : List Char) : String := String.ofList s
def showE (e : Exit) : String := match e with | .usage => "2" | .info => "0"
def lv (l : Level) : String := match l with | .debug => "10" | .info => "20" | .warning => "30"
def so (o : Option Text) : String := match o with | none => "None" | some t => "'" ++ tx t ++ "'"
def main : IO Unit := do
  let inp ← (← IO.getStdin).readToEnd
  for line in (inp.splitOn "\x1e") do
    if line.isEmpty then continue
    let parts := line.splitOn "\x1f"
    let kind := parts.head!
    let argv := parts.tail!.map String.toList
    let out := if kind == "c" then
        match parse Digits.asciiOnly (convertParser Digits.asciiOnly) {} argv with
        | .error e => showE e
        | .ok a => s!"{tx a.options.input}|{so a.options.output}|{a.options.pfssToZdi}|{(a.options.degreeMax.map toString).getD "None"}|{a.options.swmfHeader}|{a.options.noConversion}|{lv a.common.level}|{a.common.debug}"
      else if kind == "p" then
        match parse Digits.asciiOnly plotParser {} argv with
        | .error e => showE e
        | .ok a => s!"{tx a.options.input}|{so a.options.output}|{a.options.plotType}|{a.options.type}|{lv a.common.level}|{a.common.debug}"
      else
        match parse Digits.asciiOnly (lsdParser Digits.asciiOnly) {} argv with
        | .error e => showE e
        | .ok a => s!"{tx a.options.input}|{so a.options.output}|{tx a.options.params}|{a.options.skip}|{lv a.common.level}|{a.common.debug}"
    IO.print (out ++ "\x1e")
'''
import argparse,random,subprocess,io,contextlib
def common(p):
    p.add_argument('-q','--quiet',dest='log_level',action='store_const',const=30,default=20)
    p.add_argument('-v','--verbose',dest='log_level',action='store_const',const=10)
    p.add_argument('--debug',action='store_const',const=True)
    p.add_argument('--version',action='version',version='1')
    return p
def base():
    p=argparse.ArgumentParser(); p.add_argument('input_file',type=str); p.add_argument('output_file',type=str,nargs='?'); return p
c=base(); c.add_argument('--pfss-to-zdi',dest='pfss_to_zdi',action='store_const',const=True,default=False)
c.add_argument('--degree-max',type=int,default=None)
c.add_argument('--no-header',dest='h',action='store_const',const=False,default=True)
c.add_argument('--no-conversion',dest='n',action='store_const',const=True,default=False); common(c)
m=base(); m.add_argument('-p','--plot_type',type=str,default='map'); m.add_argument('-y','--type',type=str,default='zdi'); common(m)
l=base(); l.add_argument('-p','--params',type=str,default='VI'); l.add_argument('-s','--skip-rows',type=int,default=2); common(l)
def b(x): return 'true' if x else 'false'
def o(x): return 'None' if x is None else "'%s'"%x
def run(k,a):
    try:
        with contextlib.redirect_stderr(io.StringIO()),contextlib.redirect_stdout(io.StringIO()):
            r={'c':c,'p':m,'l':l}[k].parse_args(a)
    except SystemExit as e: return str(e.code)
    try:
      if k=='c': return f"{r.input_file}|{o(r.output_file)}|{b(r.pfss_to_zdi)}|{r.degree_max}|{b(r.h)}|{b(r.n)}|{r.log_level}|{b(r.debug)}"
      if k=='p': return f"{r.input_file}|{o(r.output_file)}|{r.plot_type}|{r.type}|{r.log_level}|{b(r.debug)}"
      return f"{r.input_file}|{o(r.output_file)}|{r.params}|{r.skip_rows}|{r.log_level}|{b(r.debug)}"
    except Exception as e: return repr(e)
names={'c':['--pfss-to-zdi','--degree-max','--no-header','--no-conversion'],'p':['-p','--plot_type','-y','--type'],'l':['-p','--params','-s','--skip-rows']}
gen=['-q','--quiet','-v','--verbose','--debug','--version','-h','--help']
words=['a','b','in.dat','','-','-5','-1.5','-.5','-5.','--','-x y','--foo bar','-x','--zz','3','+4',' 6 ','--=','-q=','-=','=','-5\n','1_0']
R=random.Random(1)
def tok(k):
    u=R.random()
    if u<.45: return R.choice(words[:3]+['3'])
    if u<.55: return R.choice(words)
    n=R.choice(names[k]+names[k]+gen[:6]+ ([R.choice(gen)]))
    v=R.random()
    if v<.5: return n
    if v<.7: return n[:R.randint(1,len(n))]
    if v<.8: return n[:R.randint(1,len(n))]+'='+R.choice(words)
    if v<.9: return '-'+''.join(R.choice('qvpysx=hV-') for _ in range(R.randint(1,4)))
    return n+R.choice(words)
cases=[]
for i in range(60000):
    k=R.choice('cpl'); cases.append((k,[tok(k) for _ in range(R.randint(0,6))]))
inp='\x1e'.join('\x1f'.join([k]+a) for k,a in cases)+'\x1e'
drv=pathlib.Path(tempfile.mkdtemp())/'Driver.lean'
drv.write_text(DRIVER)
out=subprocess.run(['lake','env','lean','--run',str(drv)],cwd=pathlib.Path(__file__).resolve().parent.parent/'lean',input=inp.encode(),capture_output=True)
print(out.stderr.decode()[-2000:])
res=out.stdout.decode().split('\x1e')[:-1]
print(len(res),len(cases))
bad=0; ok=0
for (k,a),r in zip(cases,res):
    e=run(k,a)
    if len(e)>1: ok+=1
    if e!=r:
        bad+=1
        if bad<15: print(k,a,'py',e,'lean',r)
print('bad',bad,'ok runs',ok)
