muts={}
def m(i,F,d,e,c,*ed): muts[i]=dict(d=d,e=e,c=c,edits=[('Model/'+F+'.lean',a,b) for a,b in ed])
m('x01','Launch','launch','a process whose genesis file cannot be read clears the store','C120: a process that does not get so far leaves the data as it was',("      | none => (.error .genesisFile, store, tries)","      | none => (.error .genesisFile, Store.empty, tries)"))
m('x02','Launch','launch','a configuration with both a bad genesis and a chain ends the process','C120: a process starts exactly if ...',("        | (.ok st, s, t) => (.ok st, s, t)","        | (.ok st, s, t) => if genesis = none then (.error .genesisFile, s, t) else (.ok st, s, t)"))
m('x03','Launch','parseReader','an empty document is refused before it is parsed','C120_config: any configuration is accepted',("  match toml buf with\n  | none","  match (if buf = [] then none else toml buf) with\n  | none"))
m('x04','Launch','launch','the genesis is read as a name that is an address too','C120_nothing_else',("match (o.file (genesisArg genesis)).bind json with","match (if \"http\".toList.isPrefixOf (genesisArg genesis) then none else (o.file (genesisArg genesis)).bind json) with"))
