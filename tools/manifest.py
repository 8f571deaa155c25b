#!/usr/bin/env python3
"""Source of MANIFEST.json: run `python3 tools/manifest.py` in /verif to regenerate it.

Status per property; properties whose area is not built yet are listed as partial with no theorem.
"""
import json
C = {}
def c(pid, status, theorems, note=""):
    C[pid] = dict(property=pid, status=status, theorems=["Huobi." + t for t in theorems], note=note)

c("C01", "proved", ["C01_conservation", "C01_conservation_chain", "totalIs_unique", "reachable_wellTyped"])
c("C02", "proved", ["C02_transfer_exact", "C02_overdraw_fails", "C02_ledger", "executes_prefix"])
c("C03", "partial", ["C03_failed_no_effect_partial", "C03_failed_removable_partial", "C03_other_nonce_refuted"],
  "False for nonces: a failed transaction also discards the nonce increment of the transaction before it (witness). "
  "Proved: nothing committed changes, and (without later deploys) other receipts, balances, approvals and assets do not change.")
c("C04", "proved", ["C04_receipts"])
c("C05", "proved", ["C05_cycle_limit"], "fee = cycles * price as u64 (wrapping)")
c("C06", "proved", ["C06_fee_summary", "C06_fee_summary_exact"], "as u64; exact when the sum fits")
c("C07", "partial", ["C07_coinbase_irrelevant_refuted", "C07_reward_refuted", "C07_coinbase_ledger_partial"],
  "False: the reward is written to the cache after the last stash and is not committed. Proved: committed state independent of the coinbase.")
c("C08", "partial", ["C08_nonce_exact_partial", "C08_nonce_bound_partial", "C08_nonce_refuted"],
  "False: the increment is only kept if the next transaction of the block succeeds. The exact rule is proved.")
c("C09", "partial", ["C09_fee_charged_refuted", "C02_ledger"], "False: no fee is ever deducted (ledger equation and witness).")
c("C10", "partial", ["C10_executable_partial", "C10_unknown_sender_refuted", "C10_poison_refuted", "C10_unsupported_panics_refuted", "C10_commit_panics_refuted"],
  "False: unknown sender fails the whole block, unsupported actions panic. Proved: executable when all senders exist and actions are supported.")
c("C11", "proved", ["C11_adapter_refines", "C11_revert_undoes", "C11_unstashed_not_persistent"])
c("C12", "proved", ["C12_asset_permanent", "C12_deploy_fresh", "C12_asset_ids_step", "reachable_wellTyped"])
c("C13", "partial", ["C13_genesis_balances", "C13_genesis_token", "C13_genesis_accounts", "C13_first_start", "C13_genesis_epoch", "C13_supply_refuted"],
  "Balances and token proved; the supply clause is false (supply credited to nobody).")
c("C14", "partial", ["C14_withdraw_user", "C14_withdraw_contract_partial", "C14_withdraw_contract_refuted"],
  "Proved for user accounts; false for contract accounts (absent asset is credited, too low balance panics).")
c("C15", "partial", ["C15_history_independent", "C15_failed_execution_leaves_db", "C15_other_roots_kept", "C15_reuse_refuted"],
  "Proved for executors opened from a root; false for reusing one executor object for two blocks.")

exec(open("tools/manifest_more.py").read())
json.dump({"claims": list(C.values())}, open("MANIFEST.json", "w"), indent=1)
