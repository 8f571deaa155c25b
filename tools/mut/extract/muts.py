muts={
'wf01':('.unlock .engine (.ret (.commit r))','.ret (.commit r)','endCommit','the guard of a commit is never dropped'),
'wf02':('.unlock .engine (.unlock .sync (.ret (.sync r)))','.unlock .engine (.ret (.sync r))','endSync','the sync guard is never dropped'),
'wf03':('            (.unlock .sync (.ret (.sync (.ok none)))))\n','            (.ret (.sync (.ok none))))\n','sync','a synchronisation that finds the engine lock taken keeps the sync lock'),
'wf04':('    | none => .unlock .sync (.ret (.sync (.error .decode)))','    | none => .ret (.sync (.error .decode))','sync','a message that cannot be read leaves the sync lock behind'),
'wf05':('def Prog.propose (cfg : NodeCfg) (now epochId : UInt64) : Prog :=\n  -- current_consensus_status.read()\n  .act id fun n0 =>','def Prog.propose (cfg : NodeCfg) (now epochId : UInt64) : Prog :=\n  -- current_consensus_status.read()\n  .lock .engine (.unlock .engine (.ret (.propose (.error .lockInSync)))) <| .act id fun n0 =>','propose','a proposal takes the engine lock for a moment'),
'wf06':('    | none => .endCommit (.error .badProof)','    | none => .endCommit (.error .lockInSync)','commit','a proof that cannot be read is reported as a taken lock'),
'wf07':('          if io.alive = false then .endCommit (.error .panic)','          if io.alive = false then .ret (.commit (.error .panic))','commit','a panic leaves the guard (no unwinding)'),
'wf08':('  | k, id :: ids, h, r => .syncOne cfg io k id h r (fun h r => Prog.syncLoop cfg io next (k + 1) ids h r)','  | k, id :: ids, h, r => .syncOne cfg io k id h r (fun h r => .syncOne cfg io k id h r (fun h r => Prog.syncLoop cfg io next (k + 1) ids h r))','syncLoop','every epoch is fetched and executed twice'),
'wf09':('        | .error e => .endCommit (.error e)\n        | .ok () =>\n          if io.alive','        | .error e => .endCommit (.error .lockInSync)\n        | .ok () =>\n          if io.alive','commit','a failed write of the proof is reported as a taken lock'),
}
