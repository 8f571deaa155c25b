{"id": "mt01", "definition": "nibblesOf", "edit": "low half of a byte first in the path only for reads of the second nibble (halves equal)", "claim": "C96: different keys are different paths", "rc": 1, "secs": 7, "failed": ["Proof/MptCode:nibbles_pack"], "examples": [], "model_error": []}
{"id": "mt02", "definition": "Mpt.insert", "edit": "a leaf whose path is a proper start of the key is overwritten", "claim": "C96: every read is answered with the last write under that key", "rc": 1, "secs": 3, "failed": ["Proof/Mpt:get_insert", "Proof/Mpt:insert_wf"], "examples": [], "model_error": []}
{"id": "mt03", "definition": "Mpt.insert", "edit": "splitting an extension loses the rest of its path", "claim": "C96", "rc": 1, "secs": 3, "failed": ["Proof/Mpt:get_insert", "Proof/Mpt:insert_wf"], "examples": [], "model_error": []}
{"id": "mt04", "definition": "Mpt.insert", "edit": "an extension that is followed keeps its old child", "claim": "C96", "rc": 1, "secs": 3, "failed": ["Proof/Mpt:get_insert", "Proof/Mpt:insert_wf"], "examples": [], "model_error": []}
{"id": "mt05", "definition": "Mpt.seat", "edit": "value put in a branch at the end of a path is dropped", "claim": "C96", "rc": 1, "secs": 3, "failed": ["Proof/Mpt:get_seat", "Proof/Mpt:insert_wf"], "examples": [], "model_error": []}
{"id": "mt06", "definition": "Mpt.shrink", "edit": "a branch left with a single child is not collapsed", "claim": "C96: the root depends on the contents only", "rc": 1, "secs": 3, "failed": ["Proof/Mpt:get_shrink", "Proof/Mpt:shrink_wf"], "examples": [], "model_error": []}
{"id": "mt07", "definition": "Mpt.shrink", "edit": "a branch left with a value only is not collapsed", "claim": "C96: the root depends on the contents only", "rc": 1, "secs": 3, "failed": ["Proof/Mpt:get_shrink", "Proof/Mpt:shrink_wf"], "examples": [], "model_error": []}
{"id": "mt08", "definition": "Mpt.shrink", "edit": "the nibble of the collapsed child is lost", "claim": "C96", "rc": 1, "secs": 3, "failed": ["Proof/Mpt:get_shrink"], "examples": [], "model_error": []}
{"id": "mt09", "definition": "Mpt.remove", "edit": "a removal below an extension leaves two extensions in a row", "claim": "C96: canonical form", "rc": 1, "secs": 3, "failed": ["Proof/Mpt:get_remove", "Proof/Mpt:remove_wf"], "examples": [], "model_error": []}
{"id": "mt10", "definition": "Mpt.remove", "edit": "removing a branch value removes the branch", "claim": "C96", "rc": 1, "secs": 3, "failed": ["Proof/Mpt:get_remove", "Proof/Mpt:remove_wf"], "examples": [], "model_error": []}
{"id": "mt11", "definition": "Mpt.write", "edit": "the empty value is stored", "claim": "C96: the empty value removes", "rc": 1, "secs": 11, "failed": ["Props/Mpt:Mpt.get_write", "Props/Mpt:Mpt.Sound.write"], "examples": ["Props/Mpt"], "model_error": []}
{"id": "mt12", "definition": "Mpt.compact", "edit": "leaves are not marked", "claim": "C96: roots commit to contents", "rc": 1, "secs": 7, "failed": ["Proof/MptCode:uncompact_compact"], "examples": [], "model_error": []}
{"id": "mt13", "definition": "Mpt.compact", "edit": "first nibble of an odd path dropped", "claim": "C96", "rc": 1, "secs": 7, "failed": ["Proof/MptCode:uncompact_compact"], "examples": [], "model_error": []}
{"id": "mt14", "definition": "Mpt.ref", "edit": "nodes of 32 bytes embedded", "claim": "C97: what was committed can be opened (stored nodes and embedded nodes must agree)", "rc": 1, "secs": 7, "failed": ["Proof/MptCode:honest_ref"], "examples": [], "model_error": []}
{"id": "mt15", "definition": "Mpt.item", "edit": "branch value left out of the coding", "claim": "C96: roots commit to contents", "rc": 1, "secs": 7, "failed": ["Proof/MptCode:item_inj", "Proof/MptCode:load_item", "Proof/MptCode:honest_item"], "examples": [], "model_error": []}
{"id": "mt16", "definition": "Mpt.item", "edit": "leaf value left out of the coding", "claim": "C96: roots commit to contents", "rc": 1, "secs": 7, "failed": ["Proof/MptCode:item_inj", "Proof/MptCode:load_item", "Proof/MptCode:honest_item"], "examples": [], "model_error": []}
{"id": "mt17", "definition": "Mpt.stored", "edit": "only nodes longer than 33 bytes are written", "claim": "C97: committed roots can be opened", "rc": 1, "secs": 8, "failed": ["Proof/MptCode:opens_of_holds", "Proof/MptCode:opens_honest"], "examples": [], "model_error": []}
{"id": "mt18", "definition": "Mpt.stored", "edit": "a short root is not written", "claim": "C97: committed roots can be opened", "rc": 1, "secs": 7, "failed": ["Proof/MptCode:opens_of_holds", "Proof/MptCode:opens_honest"], "examples": [], "model_error": []}
{"id": "mt19", "definition": "TrieDb.removeBatch", "edit": "nodes removed in full mode", "claim": "C97: full databases keep everything", "rc": 1, "secs": 11, "failed": ["Props/Mpt:removeBatch_get"], "examples": [], "model_error": []}
{"id": "mt20", "definition": "TrieDb.insertBatch", "edit": "values stored under the wrong keys", "claim": "C97", "rc": 1, "secs": 12, "failed": ["Props/Mpt:insertBatch_get", "Props/Mpt:tdb_hist"], "examples": ["Props/Mpt"], "model_error": []}
{"id": "mt21", "definition": "TrieDb.insert", "edit": "an existing node is not overwritten... and others are cleared", "claim": "C97", "rc": 1, "secs": 13, "failed": ["Props/Mpt:foldl_insert_get", "Props/Mpt:tdb_hist"], "examples": ["Props/Mpt"], "model_error": []}
{"id": "mt22", "definition": "Mpt.commit", "edit": "the root returned is the hash of the root again", "claim": "C97: the root given out can be opened", "rc": 1, "secs": 12, "failed": ["Props/Mpt:TrieRun.inv", "Props/Mpt:tdb_hist"], "examples": ["Props/Mpt"], "model_error": []}
{"id": "mt23", "definition": "TrieDb.load", "edit": "branch value read as absent", "claim": "C97: contents as committed", "rc": 1, "secs": 8, "failed": ["Proof/MptCode:load_seventeen", "Proof/MptCode:load_mono"], "examples": [], "model_error": []}
{"id": "mt24", "definition": "TrieDb.load", "edit": "children of a branch read one off", "claim": "C97", "rc": 1, "secs": 9, "failed": ["Proof/MptCode:load_seventeen", "Proof/MptCode:load_mono"], "examples": [], "model_error": []}
{"id": "mt25", "definition": "Mpt.uncompact", "edit": "leaf and extension marks confused", "claim": "C97", "rc": 1, "secs": 8, "failed": ["Proof/MptCode:uncompact_compact"], "examples": [], "model_error": []}
{"id": "mt26", "definition": "Mpt.commit", "edit": "stale nodes removed before the batch", "claim": "(equivalent for full databases; C97_light_refuted is about light ones)", "rc": 1, "secs": 12, "failed": ["Props/Mpt:TrieRun.inv", "Props/Mpt:C97_light_refuted"], "examples": [], "model_error": []}
{"id": "mt27", "definition": "Mpt.has", "edit": "contains answers for the empty key", "claim": "C96_map", "rc": 1, "secs": 13, "failed": ["Props/Mpt:C96_map"], "examples": ["Props/Mpt"], "model_error": []}
{"id": "mt28", "definition": "TrieDb.remove", "edit": "a single removal in full mode", "claim": "(the trie does not call it)", "rc": 0, "secs": 19, "failed": [], "examples": [], "model_error": []}
