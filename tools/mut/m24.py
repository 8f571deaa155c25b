muts={}
def m(i,F,d,e,c,*ed): muts[i]=dict(d=d,e=e,c=c,edits=[('Model/'+F+'.lean',a,b) for a,b in ed])
m('w01','Launch','parseConfig','only names that start with https are addresses','C120: what a name means',('if "http".toList.isPrefixOf name','if "https".toList.isPrefixOf name'))
m('w02','Launch','parseHttp','a response with a status other than 200 is an error','C120_status_refuted: error pages',("  | some (_, b) => parseReader toml b","  | some (st, b) => if st = 200 then parseReader toml b else .error .reqwest"))
m('w03','Launch','genesisArg','the default genesis is the configuration file','C120: without arguments the default files',('def genesisArg (arg : Option Str) : Str := arg.getD "./devtools/chain/genesis.json".toList','def genesisArg (arg : Option Str) : Str := arg.getD "./devtools/chain/config.toml".toList'))
m('w04','Launch','launch','a genesis that is no file is fetched','C120: the genesis is read from the file',("match (o.file (genesisArg genesis)).bind json with","match ((o.file (genesisArg genesis)).orElse fun _ => (o.http (genesisArg genesis)).map (·.2)).bind json with"))
m('w05','Launch','launch','a genesis that cannot be read is taken as empty','C120: no start without a genesis',("match (o.file (genesisArg genesis)).bind json with","match ((o.file (genesisArg genesis)).bind json).orElse fun _ => json [] with"))
m('w06','Launch','launch','the arguments are swapped','C120: each file is what its argument names',("match parseConfig o toml (configArg config) with","match parseConfig o toml (configArg genesis) with"))
m('w07','Launch','parseConfig','a file that cannot be read is fetched','C120: a file is read, nothing else',("else parseFile o toml name","else match parseFile o toml name with | .ok x => .ok x | .error _ => parseHttp o toml name"))
m('w08','PeerManager','backoffBase','the waiting time doubles','C74/C75: waiting time',("def backoffBase : Nat := 5","def backoffBase : Nat := 2"))
m('w09','PeerManager','validAttemptInterval','a failure within five seconds does not count','C74: failures four seconds apart count',("def validAttemptInterval : Nat := 4","def validAttemptInterval : Nat := 5"))
m('w10','Executor','dispatch','a call of a contract fails instead of ending the process','C119_halted',("  | .call _ _ _ _ => (.error .panic, s)","  | .call _ _ _ _ => (.error (.err .insufficientBalance), s)"))
