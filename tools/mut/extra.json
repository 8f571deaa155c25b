{
 "failed": {
  "tm05": [
   "Proof/TxMap:get_clear",
   "Props/TxMap:TxMap.call_spec"
  ],
  "apeerma03": [
   "Props/PeerManager2:C76_offline_untouched",
   "Props/PeerManager2:C76_connected_recorded"
  ],
  "u01": [
   "Props/ApiServer:C72_send_unsafe"
  ]
 },
 "tight": {
  "apeerma03": [
   "PM.C76_connected_recorded",
   "PM.C76_offline_untouched"
  ],
  "nd14": [
   "C13_genesis_epoch"
  ],
  "nd17": [
   "C78_proof"
  ],
  "mt28": [
   "C97_kept"
  ],
  "aconsen04": [
   "C13_genesis_epoch"
  ],
  "adisk02": [
   "C98_room"
  ],
  "u15": [
   "C78_root"
  ],
  "u31": [
   "PM.C75_round_waits_partial",
   "PM.C77_refuted",
   "PM.C68_sixth_failure_partial"
  ],
  "v33": [
   "C92_multiaddr"
  ],
  "v35": [
   "PM.C74_exactly_six"
  ],
  "v36": [
   "C49_derived"
  ],
  "x01": [
   "C120_unread_untouched"
  ],
  "x02": [
   "C120_started_iff"
  ]
 },
 "note": {
  "nd10": "Equivalent.",
  "nd21": "Equivalent.",
  "nd24": "Equivalent.",
  "abroadc04": "Equivalent: the timers may tick at any time.",
  "abyteex05": "Equivalent: the state after the commit is discarded.",
  "arlp05": "Equivalent up to the name of the error.",
  "apeerma01": "Equivalent for every clock that is more than five seconds past the epoch; five examples with smaller clocks fail.",
  "ad08": "Equivalent for codecs that read back what they wrote: stored bytes always decode.",
  "arpc02": "Equivalent: only which ids are used changes.",
  "arlp07": "Equivalent: the size of the empty list is 0 either way, and nothing else asks whether an item is data.",
  "u27": "Equivalent: the branch is not reached by any caller.",
  "atypes05": "Equivalent: the default value of a type, which no definition uses.",
  "u01": "The build of Props/ApiServer runs out of memory where this theorem unfolds the edited definition.",
  "adisk02": "C98_room was added for it."
 }
}