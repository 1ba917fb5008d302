{
"invalid/array/double-comma-1": "double-comma-1 = [1,,2]\n",
"invalid/array/double-comma-2": "double-comma-2 = [1,2,,]\n",
"invalid/array/extend-defined-aot": "[[tab.arr]]\n[tab]\narr.val1=1\n",
"invalid/array/extending-table": "a = [{ b = 1 }]\n\n\n\n[a.c]\n",
"invalid/array/missing-separator-1": "arrr = [true false]\n",
"invalid/array/missing-separator-2": "wrong = [ 1 2 3 ]\n",
"invalid/array/no-close-1": "no-close-1 = [ 1, 2, 3\n",
"invalid/array/no-close-2": "no-close-2 = [1,\n",
"invalid/array/no-close-3": "no-close-3 = [42 #]\n",
"invalid/array/no-close-4": "no-close-4 = [{ key = 42\n",
"invalid/array/no-close-5": "no-close-5 = [{ key = 42}\n",
"invalid/array/no-close-6": "no-close-6 = [{ key = 42 #}]\n",
"invalid/array/no-close-7": "no-close-7 = [{ key = 42} #]\n",
"invalid/array/no-close-8": "no-close-8 = [\n",
"invalid/array/no-close-table-1": "x = [{ key = 42\n",
"invalid/array/no-close-table-2": "x = [{ key = 42 #\n",
"invalid/array/no-comma-1": "no-comma-1 = [true false]\n",
"invalid/array/no-comma-2": "no-comma-2 = [ 1 2 3 ]\n",
"invalid/array/no-comma-3": "no-comma-3 = [ 1 #,]\n",
"invalid/array/only-comma-1": "only-comma-1 = [,]\n",
"invalid/array/only-comma-2": "only-comma-2 = [,,]\n",
"invalid/array/tables-1": "\nfruit = []\n\n[[fruit]] # Not allowed\n",
"invalid/array/tables-2": "# INVALID TOML DOC\n[[fruit]]\n  name = \"apple\"\n\n  [[fruit.variety]]\n    name = \"red delicious\"\n\n  # This table conflicts with the previous table\n  [fruit.variety]\n    name = \"granny smith\"\n",
"invalid/array/text-after-array-entries": "array = [\n  \"Is there life after an array separator?\", No\n  \"Entry\"\n]\n",
"invalid/array/text-before-array-separator": "array = [\n  \"Is there life before an array separator?\" No,\n  \"Entry\"\n]\n",
"invalid/bool/almost-false": "almost-false            = fals\n",
"invalid/bool/almost-false-with-extra": "almost-false-with-extra = falsify\n",
"invalid/bool/almost-true": "almost-true             = tru\n",
"invalid/bool/almost-true-with-extra": "almost-true-with-extra  = truthy\n",
"invalid/bool/bool": "almost-false-with-extra = falsify\nalmost-false            = fals\nalmost-true-with-extra  = truthy\nalmost-true             = tru\njust-f                  = f\njust-t                  = t\nmixed-case              = valid   = False\nstarting-same-false     = falsey\nstarting-same-true      = truer\nwrong-case-false        = FALSE\nwrong-case-true         = TRUE\nmixed-case-false        = falsE\nmixed-case-true         = trUe\ncapitalized-false        = False\ncapitalized-true         = True\n",
"invalid/bool/capitalized-false": "capitalized-false        = False\n",
"invalid/bool/capitalized-true": "capitalized-true         = True\n",
"invalid/bool/just-f": "just-f                  = f\n",
"invalid/bool/just-t": "just-t                  = t\n",
"invalid/bool/mixed-case": "mixed-case              = valid   = False\n",
"invalid/bool/mixed-case-false": "mixed-case-false        = falsE\n",
"invalid/bool/mixed-case-true": "mixed-case-true         = trUe\n",
"invalid/bool/starting-same-false": "starting-same-false     = falsey\n",
"invalid/bool/starting-same-true": "starting-same-true      = truer\n",
"invalid/bool/wrong-case-false": "wrong-case-false        = FALSE\n",
"invalid/bool/wrong-case-true": "wrong-case-true         = TRUE\n",
"invalid/control/bare-cr": "\n\r",
"invalid/control/bare-formfeed": "bare-formfeed     = \f\n",
"invalid/control/bare-null": "bare-null         = \"some value\" \u0000\n",
"invalid/control/bare-vertical-tab": "bare-vertical-tab = \u000b\n",
"invalid/control/comment-cr": "comment-cr   = \"Carriage return in comment\" # \ra=1\n",
"invalid/control/comment-del": "comment-del  = \"0x7f\"   # \u007f\n",
"invalid/control/comment-ff": "comment-ff   = \"0x7f\"   # \f\n",
"invalid/control/comment-lf": "comment-lf   = \"ctrl-P\" # \u0010\n",
"invalid/control/comment-null": "comment-null = \"null\"   # \u0000\n",
"invalid/control/comment-us": "comment-us   = \"ctrl-_\" # \u001f\n",
"invalid/control/control": "\n\n\n\n\ncomment-cr   = \"CR\"     # \\x0d\n\n\ncomment-cr   = \"Carriage return in comment\" # \\x0da=1\n\nstring-null = \"null\\x00\"\nstring-lf   = \"null\\x10\"\nstring-cr   = \"null\\x0d\"\nstring-us   = \"null\\x1f\"\nstring-del  = \"null\\x7f\"\nstring-bs   = \"backspace\\x08\"\n\n\n\n\n\n\n\nmulti-null = \"\"\"null\\x00\"\"\"\nmulti-lf   = \"\"\"null\\x10\"\"\"\nmulti-cr   = \"\"\"null\\x0d\"\"\"\nmulti-us   = \"\"\"null\\x1f\"\"\"\nmulti-del  = \"\"\"null\\x7f\"\"\"\n\n\n\n\n\n\n\nbare-null         = \"some value\" \\x00\nbare-formfeed     = \\x0c\nbare-vertical-tab = \\x0b\n",
"invalid/control/multi-cr": "multi-cr   = \"\"\"null\r\"\"\"\n",
"invalid/control/multi-del": "multi-del  = \"\"\"null\u007f\"\"\"\n",
"invalid/control/multi-lf": "multi-lf   = \"\"\"null\u0010\"\"\"\n",
"invalid/control/multi-null": "multi-null = \"\"\"null\u0000\"\"\"\n",
"invalid/control/multi-us": "multi-us   = \"\"\"null\u001f\"\"\"\n",
"invalid/control/rawmulti-cd": "rawmulti-cd   = '''null\r'''\n",
"invalid/control/rawmulti-del": "rawmulti-del  = '''null\u007f'''\n",
"invalid/control/rawmulti-lf": "rawmulti-lf   = '''null\u0010'''\n",
"invalid/control/rawmulti-null": "rawmulti-null = '''null\u0000'''\n",
"invalid/control/rawmulti-us": "rawmulti-us   = '''null\u001f'''\n",
"invalid/control/rawstring-cr": "rawstring-cr   = 'null\r'\n",
"invalid/control/rawstring-del": "rawstring-del  = 'null\u007f'\n",
"invalid/control/rawstring-lf": "rawstring-lf   = 'null\u0010'\n",
"invalid/control/rawstring-null": "rawstring-null = 'null\u0000'\n",
"invalid/control/rawstring-us": "rawstring-us   = 'null\u001f'\n",
"invalid/control/string-bs": "string-bs   = \"backspace\b\"\n",
"invalid/control/string-cr": "string-cr   = \"null\r\"\n",
"invalid/control/string-del": "string-del  = \"null\u007f\"\n",
"invalid/control/string-lf": "string-lf   = \"null\u0010\"\n",
"invalid/control/string-null": "string-null = \"null\u0000\"\n",
"invalid/control/string-us": "string-us   = \"null\u001f\"\n",
"invalid/datetime/feb-29": "\"not a leap year\" = 2100-02-29T15:15:15Z\n",
"invalid/datetime/feb-30": "\"only 28 or 29 days in february\" = 1988-02-30T15:15:15Z\n",
"invalid/datetime/hour-over": "\nd = 2006-01-01T24:00:00-00:00\n",
"invalid/datetime/mday-over": "\n\nd = 2006-01-32T00:00:00-00:00\n",
"invalid/datetime/mday-under": "\n\nd = 2006-01-00T00:00:00-00:00\n",
"invalid/datetime/minute-over": "\nd = 2006-01-01T00:60:00-00:00\n",
"invalid/datetime/month-over": "\nd = 2006-13-01T00:00:00-00:00\n",
"invalid/datetime/month-under": "\nd = 2007-00-01T00:00:00-00:00\n",
"invalid/datetime/no-leads": "\nno-leads = 1987-7-05T17:45:00Z\n",
"invalid/datetime/no-leads-month": "\nno-leads = 1987-7-05T17:45:00Z\n",
"invalid/datetime/no-leads-with-milli": "\nwith-milli = 1987-07-5T17:45:00.12Z\n",
"invalid/datetime/no-secs": "\nno-secs = 1987-07-05T17:45Z\n",
"invalid/datetime/no-t": "\nno-t = 1987-07-0517:45:00Z\n",
"invalid/datetime/second-over": "\n\nd = 2006-01-01T00:00:61-00:00\n",
"invalid/datetime/time-no-leads": "\nd = 2023-10-01T1:32:00Z\n",
"invalid/datetime/y10k": "\nd = 10000-01-01 00:00:00z\n",
"invalid/encoding/utf16-comment": "\u0000#\u0000 \u0000U\u0000T\u0000F\u0000-\u00001\u00006\u0000 \u0000w\u0000i\u0000t\u0000h\u0000o\u0000u\u0000t\u0000 \u0000B\u0000O\u0000M\u0000\n",
"invalid/encoding/utf16-key": "\u0000k\u0000 \u0000=\u0000 \u0000\"\u0000v\u0000\"\u0000\n",
"invalid/float/double-point-1": "double-point-1 = 0..1\n",
"invalid/float/double-point-2": "double-point-2 = 0.1.2\n",
"invalid/float/exp-double-e-1": "exp-double-e-1 = 1ee2\n",
"invalid/float/exp-double-e-2": "exp-double-e-2 = 1e2e3\n",
"invalid/float/exp-double-us": "exp-double-us = 1e__23\n",
"invalid/float/exp-leading-us": "exp-leading-us = 1e_23\n",
"invalid/float/exp-point-1": "exp-point-1 = 1e2.3\n",
"invalid/float/exp-point-2": "exp-point-2 = 1.e2\n",
"invalid/float/exp-point-3": "exp-point-3 = 3.e+20\n",
"invalid/float/exp-trailing-us": "exp-trailing-us = 1e23_\n",
"invalid/float/exp-trailing-us-1": "exp-trailing-us-1 = 1_e2\n",
"invalid/float/exp-trailing-us-2": "exp-trailing-us-2 = 1.2_e2\n",
"invalid/float/float": "leading-zero = 03.14\nleading-zero-neg = -03.14\nleading-zero-plus = +03.14\n\nleading-point = .12345\nleading-point-neg = -.12345\nleading-point-plus = +.12345\n\ntrailing-point = 1.\ntrailing-point-min = -1.\ntrailing-point-plus = +1.\n\ntrailing-us = 1.2_\nleading-us = _1.2\nus-before-point = 1_.2\nus-after-point = 1._2\n\ndouble-point-1 = 0..1\ndouble-point-2 = 0.1.2\n\nexp-point-1 = 1e2.3\nexp-point-2 = 1.e2\nexp-point-3 = 3.e+20\n\nexp-double-e-1 = 1ee2\nexp-double-e-2 = 1e2e3\n\nexp-leading-us = 1e_23\nexp-trailing-us = 1e23_\nexp-double-us = 1e__23\n\nexp-trailing-us-1 = 1_e2\nexp-trailing-us-2 = 1.2_e2\n\ninf-incomplete-1 = in\ninf-incomplete-2 = +in\ninf-incomplete-3 = -in\n\nnan-incomplete-1 = na\nnan-incomplete-2 = +na\nnan-incomplete-3 = -na\n\nnan_underscore = na_n\ninf_underscore = in_f\n",
"invalid/float/inf-capital": "v = Inf\n",
"invalid/float/inf-incomplete-1": "inf-incomplete-1 = in\n",
"invalid/float/inf-incomplete-2": "inf-incomplete-2 = +in\n",
"invalid/float/inf-incomplete-3": "inf-incomplete-3 = -in\n",
"invalid/float/inf_underscore": "inf_underscore = in_f\n",
"invalid/float/leading-point": "leading-point = .12345\n",
"invalid/float/leading-point-neg": "leading-point-neg = -.12345\n",
"invalid/float/leading-point-plus": "leading-point-plus = +.12345\n",
"invalid/float/leading-us": "leading-us = _1.2\n",
"invalid/float/leading-zero": "leading-zero = 03.14\n",
"invalid/float/leading-zero-neg": "leading-zero-neg = -03.14\n",
"invalid/float/leading-zero-plus": "leading-zero-plus = +03.14\n",
"invalid/float/nan-capital": "v = NaN\n",
"invalid/float/nan-incomplete-1": "nan-incomplete-1 = na\n",
"invalid/float/nan-incomplete-2": "nan-incomplete-2 = +na\n",
"invalid/float/nan-incomplete-3": "nan-incomplete-3 = -na\n",
"invalid/float/nan_underscore": "nan_underscore = na_n\n",
"invalid/float/trailing-point": "trailing-point = 1.\n",
"invalid/float/trailing-point-min": "trailing-point-min = -1.\n",
"invalid/float/trailing-point-plus": "trailing-point-plus = +1.\n",
"invalid/float/trailing-us": "trailing-us = 1.2_\n",
"invalid/float/trailing-us-exp-1": "trailing-us-exp-1 = 1_e2\n",
"invalid/float/trailing-us-exp-2": "trailing-us-exp-2 = 1.2_e2\n",
"invalid/float/us-after-point": "us-after-point = 1._2\n",
"invalid/float/us-before-point": "us-before-point = 1_.2\n",
"invalid/inline-table/bad-key-syntax": "tbl = { a = 1, [b] }\n",
"invalid/inline-table/double-comma": "t = {x=3,,y=4}\n",
"invalid/inline-table/duplicate-key-1": "\na={b=1, b=2}\n",
"invalid/inline-table/duplicate-key-2": "table1 = { table2.dupe = 1, table2.dupe = 2 }\n",
"invalid/inline-table/duplicate-key-3": "tbl = { fruit = { apple.color = \"red\" }, fruit.apple.texture = { smooth = true } }\n",
"invalid/inline-table/duplicate-key-4": "tbl = { a.b = \"a_b\", a.b.c = \"a_b_c\" }\n",
"invalid/inline-table/empty-1": "t = {,}\n",
"invalid/inline-table/no-close-1": "a={\n",
"invalid/inline-table/no-close-2": "a={b=1\n",
"invalid/inline-table/no-comma-1": "t = {x = 3 y = 4}\n",
"invalid/inline-table/no-comma-2": "arrr = { comma-missing = true valid-toml = false }\n",
"invalid/inline-table/overwrite-01": "a.b=0\n\na={}\n",
"invalid/inline-table/overwrite-02": "a={}\n\n[a.b]\n",
"invalid/inline-table/overwrite-03": "a = { b = 1 }\na.b = 2\n",
"invalid/inline-table/overwrite-04": "inline-t = { nest = {} }\n\n[[inline-t.nest]]\n",
"invalid/inline-table/overwrite-05": "inline-t = { nest = {} }\n\n[inline-t.nest]\n",
"invalid/inline-table/overwrite-06": "a = { b = 1, b.c = 2 }\n",
"invalid/inline-table/overwrite-07": "tab = { inner.table = [{}], inner.table.val = \"bad\" }\n",
"invalid/inline-table/overwrite-08": "tab = { inner = { dog = \"best\" }, inner.cat = \"worst\" }\n",
"invalid/inline-table/overwrite-09": "[tab.nested]\ninline-t = { nest = {} }\n\n[tab]\nnested.inline-t.nest = 2\n",
"invalid/inline-table/overwrite-10": "\n\n\na = {b.a = 1, b = 2, b.c = 3}\n",
"invalid/inline-table/trailing-comma": "\n\nabc = { abc = 123, }\n",
"invalid/integer/capital-bin": "capital-bin = 0B0\n",
"invalid/integer/capital-hex": "capital-hex = 0X1\n",
"invalid/integer/capital-oct": "capital-oct = 0O0\n",
"invalid/integer/double-sign-nex": "double-sign-nex = --99\n",
"invalid/integer/double-sign-plus": "double-sign-plus = ++99\n",
"invalid/integer/double-us": "double-us = 1__23\n",
"invalid/integer/incomplete-bin": "incomplete-bin = 0b\n",
"invalid/integer/incomplete-hex": "incomplete-hex = 0x\n",
"invalid/integer/incomplete-oct": "incomplete-oct = 0o\n",
"invalid/integer/integer": "leading-zero-1 = 01\nleading-zero-2 = 00\nleading-zero-3 = 0_0\nleading-zero-sign-1 = -01\nleading-zero-sign-2 = +01\nleading-zero-sign-3 = +0_1\n\ndouble-sign-plus = ++99\ndouble-sign-nex = --99\n\nnegative-hex = -0xff\nnegative-bin = -0b11010110\nnegative-oct = -0o755\n\npositive-hex = +0xff\npositive-bin = +0b11010110\npositive-oct = +0o755\n\ntrailing-us = 123_\nleading-us = _123\ndouble-us = 1__23\n\nus-after-hex = 0x_1\nus-after-oct = 0o_1\nus-after-bin = 0b_1\n\ntrailing-us-hex = 0x1_\ntrailing-us-oct = 0o1_\ntrailing-us-bin = 0b1_\n\nleading-us-hex = _0x1\nleading-us-oct = _0o1\nleading-us-bin = _0b1\n\ninvalid-hex-1 = 0xaafz\ninvalid-hex-2 = 0xgabba00f1\ninvalid-oct = 0o778\ninvalid-bin = 0b0012\n\ncapital-hex = 0X1\ncapital-oct = 0O0\ncapital-bin = 0B0\n",
"invalid/integer/invalid-bin": "invalid-bin = 0b0012\n",
"invalid/integer/invalid-hex": "invalid-hex = 0xaafz\n",
"invalid/integer/invalid-hex-1": "invalid-hex-1 = 0xaafz\n",
"invalid/integer/invalid-hex-2": "invalid-hex-2 = 0xgabba00f1\n",
"invalid/integer/invalid-oct": "invalid-oct = 0o778\n",
"invalid/integer/leading-us": "leading-us = _123\n",
"invalid/integer/leading-us-bin": "leading-us-bin = _0b1\n",
"invalid/integer/leading-us-hex": "leading-us-hex = _0x1\n",
"invalid/integer/leading-us-oct": "leading-us-oct = _0o1\n",
"invalid/integer/leading-zero-1": "leading-zero-1 = 01\n",
"invalid/integer/leading-zero-2": "leading-zero-2 = 00\n",
"invalid/integer/leading-zero-3": "leading-zero-3 = 0_0\n",
"invalid/integer/leading-zero-sign-1": "leading-zero-sign-1 = -01\n",
"invalid/integer/leading-zero-sign-2": "leading-zero-sign-2 = +01\n",
"invalid/integer/leading-zero-sign-3": "leading-zero-sign-3 = +0_1\n",
"invalid/integer/negative-bin": "negative-bin = -0b11010110\n",
"invalid/integer/negative-hex": "negative-hex = -0xff\n",
"invalid/integer/negative-oct": "negative-oct = -0o755\n",
"invalid/integer/positive-bin": "positive-bin = +0b11010110\n",
"invalid/integer/positive-hex": "positive-hex = +0xff\n",
"invalid/integer/positive-oct": "positive-oct = +0o755\n",
"invalid/integer/text-after-integer": "answer = 42 the ultimate answer?\n",
"invalid/integer/trailing-us": "trailing-us = 123_\n",
"invalid/integer/trailing-us-bin": "trailing-us-bin = 0b1_\n",
"invalid/integer/trailing-us-hex": "trailing-us-hex = 0x1_\n",
"invalid/integer/trailing-us-oct": "trailing-us-oct = 0o1_\n",
"invalid/integer/us-after-bin": "us-after-bin = 0b_1\n",
"invalid/integer/us-after-hex": "us-after-hex = 0x_1\n",
"invalid/integer/us-after-oct": "us-after-oct = 0o_1\n",
"invalid/key/after-array": "[[agencies]] owner = \"S Cjelli\"\n",
"invalid/key/after-table": "[error] this = \"should not be here\"\n",
"invalid/key/after-value": "first = \"Tom\" last = \"Preston-Werner\" # INVALID\n",
"invalid/key/bare-invalid-character": "bare!key = 123\n",
"invalid/key/dotted-redefine-table-1": "a = false\na.b = true\n",
"invalid/key/dotted-redefine-table-2": "\na.b = 1\n\na.b.c = 2\n",
"invalid/key/duplicate-keys-1": "name = \"Tom\"\nname = \"Pradyun\"\n",
"invalid/key/duplicate-keys-2": "dupe = false\ndupe = true\n",
"invalid/key/duplicate-keys-3": "spelling   = \"favorite\"\n\"spelling\" = \"favourite\"\n",
"invalid/key/duplicate-keys-4": "spelling   = \"favorite\"\n'spelling' = \"favourite\"\n",
"invalid/key/empty": " = 1\n",
"invalid/key/end-in-escape": "\"backslash is the last char\\\n",
"invalid/key/escape": "\\u00c0 = \"latin capital letter A with grave\"\n",
"invalid/key/hash": "a# = 1\n",
"invalid/key/newline-1": "barekey\n   = 1\n",
"invalid/key/newline-4": "\"\"\"long\nkey\"\"\" = 1\n",
"invalid/key/newline-5": "'''long\nkey''' = 1\n",
"invalid/key/no-eol": "a = 1 b = 2\n",
"invalid/key/open-bracket": "[abc = 1\n",
"invalid/key/partial-quoted": "partial\"quoted\" = 5\n",
"invalid/key/quoted-unclosed-1": "\"key = x\n",
"invalid/key/quoted-unclosed-2": "\"key\n",
"invalid/key/single-open-bracket": "[\n",
"invalid/key/space": "a b = 1\n",
"invalid/key/special-character": "\u03bc = \"greek small letter mu\"\n",
"invalid/key/start-bracket": "\n[xyz = 5\n",
"invalid/key/start-dot": ".key = 1\n",
"invalid/key/two-equals-1": "key= = 1\n",
"invalid/key/two-equals-2": "a==1\n",
"invalid/key/two-equals-3": "a=b=1\n",
"invalid/key/without-value-1": "key\n",
"invalid/key/without-value-2": "key = \n",
"invalid/key/without-value-3": "\"key\"\n",
"invalid/key/without-value-4": "\"key\" = \n",
"invalid/key/without-value-5": "fs.fw\n",
"invalid/key/without-value-6": "fs.fw =\n",
"invalid/key/without-value-7": "fs.\n",
"invalid/local-date/feb-29": "\"not a leap year\" = 2100-02-29\n",
"invalid/local-date/feb-30": "\"only 28 or 29 days in february\" = 1988-02-30\n",
"invalid/local-date/mday-over": "\n\nd = 2006-01-32\n",
"invalid/local-date/mday-under": "\n\nd = 2006-01-00\n",
"invalid/local-date/month-over": "\nd = 2006-13-01\n",
"invalid/local-date/month-under": "\nd = 2007-00-01\n",
"invalid/local-date/no-leads": "\nno-leads = 1987-7-05\n",
"invalid/local-date/no-leads-with-milli": "\nwith-milli = 1987-07-5\n",
"invalid/local-date/trailing-t": "\nd = 2006-01-30T\n",
"invalid/local-date/y10k": "\nd = 10000-01-01\n",
"invalid/local-datetime/feb-29": "\"not a leap year\" = 2100-02-29T15:15:15\n",
"invalid/local-datetime/feb-30": "\"only 28 or 29 days in february\" = 1988-02-30T15:15:15\n",
"invalid/local-datetime/hour-over": "\nd = 2006-01-01T24:00:00\n",
"invalid/local-datetime/mday-over": "\n\nd = 2006-01-32T00:00:00\n",
"invalid/local-datetime/mday-under": "\n\nd = 2006-01-00T00:00:00\n",
"invalid/local-datetime/minute-over": "\nd = 2006-01-01T00:60:00\n",
"invalid/local-datetime/month-over": "\nd = 2006-13-01T00:00:00\n",
"invalid/local-datetime/month-under": "\nd = 2007-00-01T00:00:00\n",
"invalid/local-datetime/no-leads": "\nno-leads = 1987-7-05T17:45:00\n",
"invalid/local-datetime/no-leads-with-milli": "\nwith-milli = 1987-07-5T17:45:00.12\n",
"invalid/local-datetime/no-secs": "\nno-secs = 1987-07-05T17:45\n",
"invalid/local-datetime/no-t": "\nno-t = 1987-07-0517:45:00\n",
"invalid/local-datetime/second-over": "\n\nd = 2006-01-01T00:00:61\n",
"invalid/local-datetime/time-no-leads": "\nd = 2023-10-01T1:32:00Z\n",
"invalid/local-datetime/y10k": "\nd = 10000-01-01 00:00:00\n",
"invalid/local-time/hour-over": "\nd = 24:00:00\n",
"invalid/local-time/minute-over": "\nd = 00:60:00\n",
"invalid/local-time/no-secs": "\nno-secs = 17:45\n",
"invalid/local-time/second-over": "\n\nd = 00:00:61\n",
"invalid/local-time/time-no-leads": "\nd = 1:32:00\n",
"invalid/local-time/time-no-leads-2": "\nd = 01:32:0\n",
"invalid/spec/inline-table-2-0": "[product]\ntype = { name = \"Nail\" }\ntype.edible = false  # INVALID\n",
"invalid/spec/inline-table-3-0": "[product]\ntype.name = \"Nail\"\ntype = { edible = false }  # INVALID\n",
"invalid/spec/key-value-pair-1": "key = # INVALID\n",
"invalid/spec/keys-2": "= \"no key name\"  # INVALID\n\"\" = \"blank\"     # VALID but discouraged\n'' = 'blank'     # VALID but discouraged\n",
"invalid/spec/string-7-0": "\n\napos15 = '''Here are fifteen apostrophes: ''''''''''''''''''  # INVALID\napos15 = \"Here are fifteen apostrophes: '''''''''''''''\"\n",
"invalid/spec/table-9-0": "[fruit]\napple.color = \"red\"\n\n\n[fruit.apple]  # INVALID\n",
"invalid/spec/table-9-1": "[fruit]\n\napple.taste.sweet = true\n\n\n[fruit.apple.taste]  # INVALID\n",
"invalid/string/bad-byte-escape": "naughty = \"\\xAg\"\n",
"invalid/string/bad-concat": "no_concat = \"first\" \"second\"\n",
"invalid/string/bad-escape-1": "invalid-escape = \"This string has a bad \\a escape character.\"\n",
"invalid/string/bad-escape-2": "invalid-escape = \"This string has a bad \\  escape character.\"\n",
"invalid/string/bad-escape-3": "backslash = \"\\\"\n",
"invalid/string/bad-hex-esc-1": "bad-hex-esc-1 = \"\\x0g\"\n",
"invalid/string/bad-hex-esc-2": "bad-hex-esc-2 = \"\\xG0\"\n",
"invalid/string/bad-hex-esc-3": "bad-hex-esc-3 = \"\\x\"\n",
"invalid/string/bad-hex-esc-4": "bad-hex-esc-4 = \"\\x 50\"\n",
"invalid/string/bad-hex-esc-5": "bad-hex-esc-5 = \"\\x 50\"\n",
"invalid/string/bad-slash-escape": "invalid-escape = \"This string has a bad \\/ escape character.\"\n",
"invalid/string/bad-uni-esc-1": "bad-uni-esc-1 = \"val\\ue\"\n",
"invalid/string/bad-uni-esc-2": "bad-uni-esc-2 = \"val\\Ux\"\n",
"invalid/string/bad-uni-esc-3": "bad-uni-esc-3 = \"val\\U0000000\"\n",
"invalid/string/bad-uni-esc-4": "bad-uni-esc-4 = \"val\\U0000\"\n",
"invalid/string/bad-uni-esc-5": "bad-uni-esc-5 = \"val\\Ugggggggg\"\n",
"invalid/string/bad-uni-esc-6": "bad-uni-esc-6 = \"This string contains a non scalar unicode codepoint \\uD801\"\n",
"invalid/string/bad-uni-esc-7": "bad-uni-esc-7 = \"\\uabag\"\n",
"invalid/string/basic-byte-escapes": "answer = \"\\x33\"\n",
"invalid/string/basic-multiline-out-of-range-unicode-escape-1": "a = \"\"\"\\UFFFFFFFF\"\"\"\n",
"invalid/string/basic-multiline-out-of-range-unicode-escape-2": "a = \"\"\"\\U00D80000\"\"\"\n",
"invalid/string/basic-multiline-quotes": "str5 = \"\"\"Here are three quotation marks: \"\"\".\"\"\"\n",
"invalid/string/basic-multiline-unknown-escape": "a = \"\"\"\\@\"\"\"\n",
"invalid/string/basic-out-of-range-unicode-escape-1": "a = \"\\UFFFFFFFF\"\n",
"invalid/string/basic-out-of-range-unicode-escape-2": "a = \"\\U00D80000\"\n",
"invalid/string/basic-unknown-escape": "a = \"\\@\"\n",
"invalid/string/literal-multiline-quotes-1": "a = '''6 apostrophes: ''''''\n",
"invalid/string/literal-multiline-quotes-2": "a = '''15 apostrophes: ''''''''''''''''''\n",
"invalid/string/missing-quotes": "name = value\n",
"invalid/string/multiline-bad-escape-1": "k = \"\"\"t\\a\"\"\"\n",
"invalid/string/multiline-bad-escape-2": "\nk = \"\"\"t\\ t\"\"\"\n",
"invalid/string/multiline-bad-escape-3": "\nk = \"\"\"t\\ \"\"\"\n",
"invalid/string/multiline-bad-escape-4": "backslash = \"\"\"\\\"\"\"\n",
"invalid/string/multiline-escape-space-1": "a = \"\"\"\n  foo \\ \\n\n  bar\"\"\"\n",
"invalid/string/multiline-escape-space-2": "bee = \"\"\"\nhee \\\n\ngee \\   \"\"\"\n",
"invalid/string/multiline-lit-no-close-1": "invalid = '''\n    this will fail\n",
"invalid/string/multiline-lit-no-close-2": "x='''\n",
"invalid/string/multiline-lit-no-close-3": "not-closed= '''\ndiibaa\nblibae ete\neteta\n",
"invalid/string/multiline-lit-no-close-4": "bee = '''\nhee\ngee ''\n",
"invalid/string/multiline-no-close-1": "invalid = \"\"\"\n    this will fail\n",
"invalid/string/multiline-no-close-2": "x=\"\"\"\n",
"invalid/string/multiline-no-close-3": "not-closed= \"\"\"\ndiibaa\nblibae ete\neteta\n",
"invalid/string/multiline-no-close-4": "bee = \"\"\"\nhee\ngee \"\"\n",
"invalid/string/multiline-no-close-5": "bee = \"\"\"\nhee\ngee\\\t \n",
"invalid/string/multiline-quotes-1": "a = \"\"\"6 quotes: \"\"\"\"\"\"\n",
"invalid/string/no-close-1": "no-ending-quote = \"One time, at band camp\n",
"invalid/string/no-close-2": "\"a-string\".must-be = \"closed\n",
"invalid/string/no-close-3": "no-ending-quote = 'One time, at band camp\n",
"invalid/string/no-close-4": "'a-string'.must-be = 'closed\n",
"invalid/string/string": "bad-hex-esc-1 = \"\\x0g\"\nbad-hex-esc-2 = \"\\xG0\"\nbad-hex-esc-3 = \"\\x\"\nbad-hex-esc-4 = \"\\x 50\"\n\nbad-uni-esc-1 = \"val\\ue\"\nbad-uni-esc-2 = \"val\\Ux\"\nbad-uni-esc-3 = \"val\\U0000000\"\nbad-uni-esc-4 = \"val\\U0000\"\nbad-uni-esc-5 = \"val\\Ugggggggg\"\nbad-uni-esc-6 = \"This string contains a non scalar unicode codepoint \\uD801\"\nbad-uni-esc-7 = \"\\uabag\"\n",
"invalid/string/text-after-string": "string = \"Is there life after strings?\" No.\n",
"invalid/string/wrong-close": "bad-ending-quote = \"double and single'\n",
"invalid/table/append-to-array-with-dotted-keys": "[[a.b]]\n\n[a]\nb.y = 2\n",
"invalid/table/append-with-dotted-keys-1": "\n\n\n\n\n\n\n\n\n\n\n\n[a.b.c]\n  z = 9\n\n[a]\n  b.c.t = \"Using dotted keys to add to [a.b.c] after explicitly defining it above is not allowed\"\n",
"invalid/table/append-with-dotted-keys-2": "\n\n\n[a.b.c.d]\n  z = 9\n\n[a]\n  b.c.d.k.t = \"Using dotted keys to add to [a.b.c.d] after explicitly defining it above is not allowed\"\n",
"invalid/table/array-empty": "[[]]\n",
"invalid/table/array-implicit": "\n\n\n\n\n\n\n\n\n[[albums.songs]]\n\n\n[[albums]]\n",
"invalid/table/array-no-close-1": "[[albums]\n",
"invalid/table/array-no-close-2": "[[closing-bracket.missing]\n",
"invalid/table/duplicate": "[a]\n\n\n[a]\n",
"invalid/table/duplicate-key-dotted-array": "[fruit]\napple.color = \"red\"\n\n[[fruit.apple]]\n",
"invalid/table/duplicate-key-dotted-table": "[fruit]\napple.color = \"red\"\n\n[fruit.apple] # INVALID\n",
"invalid/table/duplicate-key-dotted-table2": "[fruit]\napple.taste.sweet = true\n\n[fruit.apple.taste] # INVALID\n",
"invalid/table/duplicate-key-table": "[fruit]\ntype = \"apple\"\n\n[fruit.type]\n",
"invalid/table/duplicate-table-array": "[tbl]\n[[tbl]]\n",
"invalid/table/duplicate-table-array2": "[[tbl]]\n[tbl]\n",
"invalid/table/empty": "[]\n",
"invalid/table/empty-implicit-table": "[naughty..naughty]\n",
"invalid/table/equals-sign": "[name=bad]\n",
"invalid/table/llbrace": "[ [table]]\n",
"invalid/table/nested-brackets-close": "[a]b]\n",
"invalid/table/nested-brackets-open": "[a[b]\n",
"invalid/table/no-close-1": "[where will it end\nname = value\n",
"invalid/table/no-close-2": "[closing-bracket.missing\u00f6\n",
"invalid/table/no-close-3": "[\"where will it end]\nname = value\n",
"invalid/table/no-close-4": "[\n",
"invalid/table/no-close-5": "[fwfw.wafw\n",
"invalid/table/overwrite-array-in-parent": "[[parent-table.arr]]\n[parent-table]\n\narr = 2\n",
"invalid/table/overwrite-bool-with-array": "a=true\n[[a]]\n",
"invalid/table/overwrite-with-deep-table": "a=1\n[a.b.c.d]\n",
"invalid/table/redefine-1": "\n[a]\nb = 1\n\n[a.b]\n",
"invalid/table/redefine-2": "[t1]\nt2.t3.v = 0\n[t1.t2]\n",
"invalid/table/redefine-3": "[t1]\nt2.t3.v = 0\n[t1.t2.t3]\n",
"invalid/table/rrbrace": "[[table] ]\n",
"invalid/table/super-twice": "\n[a]\n[a]\n",
"invalid/table/text-after-table": "[error] this shouldn't be here\n",
"invalid/table/whitespace": "[invalid key]\n",
"invalid/table/with-pound": "[key#group]\n"
}