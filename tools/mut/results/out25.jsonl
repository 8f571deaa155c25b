{"id": "x01", "definition": "launch", "edit": "a process whose genesis file cannot be read clears the store", "claim": "C120: a process that does not get so far leaves the data as it was", "rc": 1, "secs": 8, "failed": ["Props/Launch:C120_unread_untouched"], "examples": [], "model_error": []}
{"id": "x02", "definition": "launch", "edit": "a configuration with both a bad genesis and a chain ends the process", "claim": "C120: a process starts exactly if ...", "rc": 1, "secs": 10, "failed": ["Props/Launch:C120_launch_partial", "Props/Launch:C120_started_iff", "Props/Launch:C120_status_refuted"], "examples": [], "model_error": []}
{"id": "x03", "definition": "parseReader", "edit": "an empty document is refused before it is parsed", "claim": "C120_config: any configuration is accepted", "rc": 1, "secs": 8, "failed": ["Props/Launch:parseReader_ok"], "examples": [], "model_error": []}
{"id": "x04", "definition": "launch", "edit": "the genesis is read as a name that is an address too", "claim": "C120_nothing_else", "rc": 1, "secs": 9, "failed": ["Props/Launch:C120_launch_partial", "Props/Launch:C120_started_iff", "Props/Launch:C120_unread_untouched"], "examples": [], "model_error": []}
