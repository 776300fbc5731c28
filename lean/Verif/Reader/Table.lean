/-
The states of the lexer (/repo/sources/dfmc/reader/lexer-transitions.dylan), one constructor for each state,
with their builders, actions and transitions as they are written there.  This file was made from that one
by a script; every state cites its lines.
-/
namespace Verif.Reader

/-- The states (`lexer-transitions.dylan:20-648`). -/
inductive St where
  | notAllowed | start | whitespace | slash | singleLineComment | singleLineCommentCr
  | singleLineCommentEnd | delimitedCommentStart | delimitedCommentSlash | delimitedCommentSlashSlash
  | delimitedCommentStar | delimitedCommentBody | delimitedCommentEnd | sharp | sharpParen | sharpBracket
  | sharpBrace | sharpSharp | sharpColon | sharpColonAlphabetic | sharpColonNonAlphabetic
  | sharpColon1alpha | sharpColonDone | sharpTrue | sharpFalse | sharpN | sharpNe | sharpNex | sharpNext
  | sharpR | sharpRe | sharpRes | sharpRest | sharpK | sharpKe | sharpKey | sharpA | sharpAl | sharpAll
  | sharpAllDash | sharpAllK | sharpAllKe | sharpAllKey | sharpAllKeys | sharpB | binaryInteger
  | binaryIntegerUnderscore | sharpO | octalInteger | octalIntegerUnderscore | sharpX | hexInteger
  | hexIntegerUnderscore | lparen | rparen | comma | dot | dotDot | ellipsis | semicolon | colon
  | colonEqual | doubleColon | lbracket | rbracket | lbrace | rbrace | minus | equal | doubleEqual | arrow
  | question | doubleQuestion | questionEqual | questionAt | backslash | backslashDot | backslashDotDot
  | backslashEllipsis | backslashQuestion | backslashSharp | backslashSharpN | backslashSharpNe
  | backslashSharpNex | backslashSharpNext | backslashSharpR | backslashSharpRe | backslashSharpRes
  | backslashSharpRest | backslashSharpK | backslashSharpKe | backslashSharpKey | backslashSharpA
  | backslashSharpAl | backslashSharpAll | backslashSharpAllDash | backslashSharpAllK | backslashSharpAllKe
  | backslashSharpAllKey | backslashSharpAllKeys | backslashDoubleQuestion | backslashQuestionEqual
  | backslashPercent | backslashDone | backslashTilde | backslashTildeEqual | backslashColon
  | backslashColonColon | backslashGraphic | backslashGraphicDone | backslashGraphicPreEqual
  | backslashSymbol | backslashDigit | backslashDigitAlpha | plus | tilde | tildeEqual | tildeEqualEqual
  | operatorGraphic | operatorGraphicPreEqual | leadingGraphic | leadingDollar | historyOrLeadingGraphic
  | leadingUnderscore | symbol | colonKeyword | cnameBinop | cnameGraphicBinop | cnameTilde
  | cnameTildeEqual | cnameTildeDoubleEqual | cnameAngle | cnameAngleEqual | cnameEqual | cnameColon
  | cnameLeadingNumeric | cnameNumericAlpha | cnameLeadingGraphic | cname | colonQname | qnameBinop
  | qnameGraphicBinop | qnameTilde | qnameTildeEqual | qnameTildeDoubleEqual | qnameAngle | qnameAngleEqual
  | qnameEqual | qnameColon | qnameLeadingNumeric | qnameNumericAlpha | qnameLeadingGraphic | qname | quote
  | quoteEscape | quoteEscapeLess | quoteHexCharDigits | quoteChar | character | stringStart
  | twoDoubleQuotes | drmStringBody | drmStringEnd | drmStringEscape | drmStringEscapeLess
  | drmStringHexCharDigits | multiStringStart | multiStringBody | multiStringBodyContinue | multiStringEnd
  | multiStringEscape | multiStringEscapeLess | multiStringHexCharDigits | rawStringStart
  | rawTwoDoubleQuotes | rawOneLineStringBody | rawOneLineStringEnd | rawMultiStringStart
  | rawMultiStringBody | rawMultiStringBodyContinue | rawMultiStringEnd | decimal | decimalUnderscore
  | decimalSlash | numericAlpha | leadingNumeric | ratio | signedDecimal | signedDecimalUnderscore
  | signedDecimalSlash | signedRatio | decimalDot | decimalDotDecimal | decimalDotDecimalUnderscore | fpE
  | fpESign | fpExp | fpExpUnderscore | decimalE | decimalExp | decimalESign
  deriving DecidableEq, Repr

/-- Fragments without contents: the classes of `fragment-builder(<…>)` and the escaped ones
    (`lexer.dylan:310-319`). -/
inductive Mark where
  | hashLparen | hashLbracket | hashLbrace | hashHash | hashTrue | hashFalse | hashNext | hashRest
  | hashKey | hashAllKeys | lparen | rparen | comma | dot | ellipsis | semicolon | colonColon | lbracket
  | rbracket | lbrace | rbrace | equalGreater | query | queryQuery | queryEqual | queryAt | escapedEllipsis
  | escapedQuery | escapedHashNext | escapedHashRest | escapedHashKey | escapedHashAllKeys
  | escapedQueryQuery | escapedQueryEqual | escapedColonColon
  deriving DecidableEq, Repr

/-- Fragment builders (`lexer.dylan:29-36`): the symbols for white space and comments, the functions
    `make-…` and `parse-…`, and the end of the source (`lexer.dylan:458-459`). -/
inductive Builder where
  | whitespace | comment | binaryOperator | minus | tilde | equal | doubleEqual | quotedName | identifier
  | historyName | constrainedName | qualifiedName | keyword | integer | ratio | float | character | string
  | rawString | hashLiteral | mark (m : Mark) | eof
  deriving DecidableEq, Repr

/-- The actions of conditionally accepting states (`lexer.dylan:1062-1110`). -/
inductive Action where
  | commentStart | commentEnd | quoteStart | quoteEnd | resetQuoteEnd
  deriving DecidableEq, Repr

/-- What a transition is on (`lexer.dylan:88-171`): a character, a string of characters and ranges,
    `$ascii-8-bit-extensions`, or `#"otherwise"`. -/
inductive On where
  | char (c : Char)
  | str (s : String)
  | extensions
  | otherwise
  deriving DecidableEq, Repr

/-- The builders of the states. -/
def builder : St → Option Builder
  | .whitespace => some .whitespace
  | .slash => some .binaryOperator
  | .singleLineCommentCr => some .comment
  | .singleLineCommentEnd => some .comment
  | .delimitedCommentEnd => some .comment
  | .sharpParen => some (.mark .hashLparen)
  | .sharpBracket => some (.mark .hashLbracket)
  | .sharpBrace => some (.mark .hashLbrace)
  | .sharpSharp => some (.mark .hashHash)
  | .sharpColonDone => some .hashLiteral
  | .sharpTrue => some (.mark .hashTrue)
  | .sharpFalse => some (.mark .hashFalse)
  | .sharpNext => some (.mark .hashNext)
  | .sharpRest => some (.mark .hashRest)
  | .sharpKey => some (.mark .hashKey)
  | .sharpAllKeys => some (.mark .hashAllKeys)
  | .binaryInteger => some .integer
  | .octalInteger => some .integer
  | .hexInteger => some .integer
  | .lparen => some (.mark .lparen)
  | .rparen => some (.mark .rparen)
  | .comma => some (.mark .comma)
  | .dot => some (.mark .dot)
  | .ellipsis => some (.mark .ellipsis)
  | .semicolon => some (.mark .semicolon)
  | .colonEqual => some .binaryOperator
  | .doubleColon => some (.mark .colonColon)
  | .lbracket => some (.mark .lbracket)
  | .rbracket => some (.mark .rbracket)
  | .lbrace => some (.mark .lbrace)
  | .rbrace => some (.mark .rbrace)
  | .minus => some .minus
  | .equal => some .equal
  | .doubleEqual => some .doubleEqual
  | .arrow => some (.mark .equalGreater)
  | .question => some (.mark .query)
  | .doubleQuestion => some (.mark .queryQuery)
  | .questionEqual => some (.mark .queryEqual)
  | .questionAt => some (.mark .queryAt)
  | .backslashDot => some (.mark .dot)
  | .backslashEllipsis => some (.mark .escapedEllipsis)
  | .backslashQuestion => some (.mark .escapedQuery)
  | .backslashSharpNext => some (.mark .escapedHashNext)
  | .backslashSharpRest => some (.mark .escapedHashRest)
  | .backslashSharpKey => some (.mark .escapedHashKey)
  | .backslashSharpAllKeys => some (.mark .escapedHashAllKeys)
  | .backslashDoubleQuestion => some (.mark .escapedQueryQuery)
  | .backslashQuestionEqual => some (.mark .escapedQueryEqual)
  | .backslashDone => some .quotedName
  | .backslashTilde => some .quotedName
  | .backslashTildeEqual => some .quotedName
  | .backslashColonColon => some (.mark .escapedColonColon)
  | .backslashGraphicDone => some .quotedName
  | .backslashGraphicPreEqual => some .quotedName
  | .backslashSymbol => some .quotedName
  | .plus => some .binaryOperator
  | .tilde => some .tilde
  | .tildeEqual => some .binaryOperator
  | .tildeEqualEqual => some .binaryOperator
  | .operatorGraphic => some .binaryOperator
  | .operatorGraphicPreEqual => some .binaryOperator
  | .historyOrLeadingGraphic => some .historyName
  | .leadingUnderscore => some .identifier
  | .symbol => some .identifier
  | .colonKeyword => some .keyword
  | .cnameBinop => some .constrainedName
  | .cnameGraphicBinop => some .constrainedName
  | .cnameTildeEqual => some .constrainedName
  | .cnameTildeDoubleEqual => some .constrainedName
  | .cnameAngle => some .constrainedName
  | .cnameAngleEqual => some .constrainedName
  | .cnameEqual => some .constrainedName
  | .cname => some .constrainedName
  | .qnameBinop => some .qualifiedName
  | .qnameGraphicBinop => some .qualifiedName
  | .qnameTildeEqual => some .qualifiedName
  | .qnameTildeDoubleEqual => some .qualifiedName
  | .qnameAngle => some .qualifiedName
  | .qnameAngleEqual => some .qualifiedName
  | .qnameEqual => some .qualifiedName
  | .qname => some .qualifiedName
  | .character => some .character
  | .twoDoubleQuotes => some .string
  | .drmStringEnd => some .string
  | .multiStringEnd => some .string
  | .rawTwoDoubleQuotes => some .rawString
  | .rawOneLineStringEnd => some .rawString
  | .rawMultiStringEnd => some .rawString
  | .decimal => some .integer
  | .ratio => some .ratio
  | .signedDecimal => some .integer
  | .signedRatio => some .ratio
  | .decimalDot => some .float
  | .decimalDotDecimal => some .float
  | .fpExp => some .float
  | .decimalExp => some .float
  | _ => none

/-- The actions of the conditionally accepting states. -/
def action : St → Option Action
  | .delimitedCommentStart => some .commentStart
  | .delimitedCommentEnd => some .commentEnd
  | .stringStart => some .quoteStart
  | .twoDoubleQuotes => some .quoteStart
  | .multiStringStart => some .quoteStart
  | .multiStringBody => some .resetQuoteEnd
  | .multiStringEnd => some .quoteEnd
  | .multiStringEscape => some .resetQuoteEnd
  | .rawStringStart => some .quoteStart
  | .rawTwoDoubleQuotes => some .quoteStart
  | .rawMultiStringStart => some .quoteStart
  | .rawMultiStringBody => some .resetQuoteEnd
  | .rawMultiStringEnd => some .quoteEnd
  | _ => none

/-- The transitions of the states; a state without any has no table (`lexer.dylan:173-176`). -/
def transitions : St → List (On × St)
  | .notAllowed => []  -- 21
  | .start =>  -- 22-51
    [(.str " \t\x0c\n\r", .whitespace), (.char '/', .slash), (.char '#', .sharp), (.char '(', .lparen),
     (.char ')', .rparen), (.char ',', .comma), (.char '.', .dot), (.char ';', .semicolon),
     (.char '[', .lbracket), (.char ']', .rbracket), (.char '{', .lbrace), (.char '}', .rbrace),
     (.char ':', .colon), (.char '-', .minus), (.char '=', .equal), (.char '?', .question),
     (.char '\\', .backslash), (.char '+', .plus), (.char '~', .tilde), (.str "*^&|", .operatorGraphic),
     (.str "<>", .operatorGraphicPreEqual), (.str "!%@", .leadingGraphic), (.str "$", .leadingDollar),
     (.str "_", .leadingUnderscore), (.str "A-Za-z", .symbol), (.char '\'', .quote),
     (.char '"', .stringStart), (.str "0-9", .decimal)]
  | .whitespace => [(.str " \t\x0c\n\r", .whitespace)]  -- 52-53
  | .slash => [(.char '/', .singleLineComment), (.char '*', .delimitedCommentStart)]  -- 54-56
  | .singleLineComment =>  -- 58-63
    [(.str "\n", .singleLineCommentEnd), (.str "\r", .singleLineCommentCr),
     (.otherwise, .singleLineComment)]
  | .singleLineCommentCr => [(.char '\n', .singleLineCommentEnd)]  -- 64-65
  | .singleLineCommentEnd => []  -- 66
  | .delimitedCommentStart =>  -- 69-73
    [(.char '/', .delimitedCommentSlash), (.char '*', .delimitedCommentStar),
     (.otherwise, .delimitedCommentBody)]
  | .delimitedCommentSlash =>  -- 74-77
    [(.char '/', .delimitedCommentSlashSlash), (.char '*', .delimitedCommentStart),
     (.otherwise, .delimitedCommentBody)]
  | .delimitedCommentSlashSlash =>  -- 78-80
    [(.str "\n\r", .delimitedCommentBody), (.otherwise, .delimitedCommentSlashSlash)]
  | .delimitedCommentStar =>  -- 81-84
    [(.char '/', .delimitedCommentEnd), (.char '*', .delimitedCommentStar),
     (.otherwise, .delimitedCommentBody)]
  | .delimitedCommentBody =>  -- 85-88
    [(.char '/', .delimitedCommentSlash), (.char '*', .delimitedCommentStar),
     (.otherwise, .delimitedCommentBody)]
  | .delimitedCommentEnd => [(.otherwise, .delimitedCommentBody)]  -- 89-91
  | .sharp =>  -- 93-108
    [(.char '(', .sharpParen), (.char '[', .sharpBracket), (.char '{', .sharpBrace),
     (.char '#', .sharpSharp), (.char '"', .stringStart), (.char ':', .sharpColon), (.str "bB", .sharpB),
     (.str "oO", .sharpO), (.str "xX", .sharpX), (.str "tT", .sharpTrue), (.str "fF", .sharpFalse),
     (.str "nN", .sharpN), (.str "rR", .sharpR), (.str "kK", .sharpK), (.str "aA", .sharpA)]
  | .sharpParen => []  -- 109
  | .sharpBracket => []  -- 110
  | .sharpBrace => []  -- 111
  | .sharpSharp => []  -- 112
  | .sharpColon =>  -- 114-116
    [(.str "a-zA-Z", .sharpColonAlphabetic), (.str "0-9!&*<>|^$%@_", .sharpColonNonAlphabetic)]
  | .sharpColonAlphabetic =>  -- 117-119
    [(.char ':', .sharpColonDone), (.str "a-zA-Z0-9!&*<>|^$%@_+~?/=-", .sharpColonAlphabetic)]
  | .sharpColonNonAlphabetic =>  -- 120-122
    [(.str "0-9!&*<>|^$%@_+~?/=-", .sharpColonNonAlphabetic), (.str "a-zA-Z", .sharpColon1alpha)]
  | .sharpColon1alpha =>  -- 123-125
    [(.str "a-zA-Z", .sharpColonAlphabetic), (.str "0-9!&*<>|^$%@_+~?/=-", .sharpColonNonAlphabetic)]
  | .sharpColonDone => []  -- 126
  | .sharpTrue => []  -- 128
  | .sharpFalse => []  -- 129
  | .sharpN => [(.str "eE", .sharpNe)]  -- 130
  | .sharpNe => [(.str "xX", .sharpNex)]  -- 131
  | .sharpNex => [(.str "tT", .sharpNext)]  -- 132
  | .sharpNext => []  -- 133
  | .sharpR => [(.str "eE", .sharpRe), (.char '"', .rawStringStart)]  -- 134-136
  | .sharpRe => [(.str "sS", .sharpRes)]  -- 137
  | .sharpRes => [(.str "tT", .sharpRest)]  -- 138
  | .sharpRest => []  -- 139
  | .sharpK => [(.str "eE", .sharpKe)]  -- 140
  | .sharpKe => [(.str "yY", .sharpKey)]  -- 141
  | .sharpKey => []  -- 142
  | .sharpA => [(.str "lL", .sharpAl)]  -- 143
  | .sharpAl => [(.str "lL", .sharpAll)]  -- 144
  | .sharpAll => [(.char '-', .sharpAllDash)]  -- 145
  | .sharpAllDash => [(.str "kK", .sharpAllK)]  -- 146
  | .sharpAllK => [(.str "eE", .sharpAllKe)]  -- 147
  | .sharpAllKe => [(.str "yY", .sharpAllKey)]  -- 148
  | .sharpAllKey => [(.str "sS", .sharpAllKeys)]  -- 149
  | .sharpAllKeys => []  -- 150
  | .sharpB => [(.str "01", .binaryInteger)]  -- 152-153
  | .binaryInteger => [(.str "01", .binaryInteger), (.char '_', .binaryIntegerUnderscore)]  -- 154-156
  | .binaryIntegerUnderscore => [(.str "01", .binaryInteger)]  -- 157-158
  | .sharpO => [(.str "0-7", .octalInteger)]  -- 160-161
  | .octalInteger => [(.str "0-7", .octalInteger), (.char '_', .octalIntegerUnderscore)]  -- 162-164
  | .octalIntegerUnderscore => [(.str "0-7", .octalInteger)]  -- 165-166
  | .sharpX => [(.str "0-9a-fA-F", .hexInteger)]  -- 168-169
  | .hexInteger => [(.str "0-9a-fA-F", .hexInteger), (.char '_', .hexIntegerUnderscore)]  -- 170-172
  | .hexIntegerUnderscore => [(.str "0-9a-fA-F", .hexInteger)]  -- 173-174
  | .lparen => []  -- 176
  | .rparen => []  -- 177
  | .comma => []  -- 178
  | .dot => [(.char '.', .dotDot), (.str "0123456789", .decimalDotDecimal)]  -- 179-181
  | .dotDot => [(.char '.', .ellipsis)]  -- 182
  | .ellipsis => []  -- 183
  | .semicolon => []  -- 184
  | .colon =>  -- 185-195
    [(.char '=', .colonEqual), (.char ':', .doubleColon), (.str "a-zA-Z", .cname),
     (.str "0-9", .cnameLeadingNumeric), (.str "!$%@_", .cnameLeadingGraphic), (.str "+/", .cnameBinop),
     (.char '-', .cnameBinop), (.str "*^&|", .cnameGraphicBinop), (.char '~', .cnameTilde),
     (.str "<>", .cnameAngle)]
  | .colonEqual => [(.char '=', .cnameBinop)]  -- 196-197
  | .doubleColon => [(.char '=', .cnameBinop)]  -- 198-199
  | .lbracket => []  -- 200
  | .rbracket => []  -- 201
  | .lbrace => []  -- 202
  | .rbrace => []  -- 203
  | .minus => [(.str "0-9", .signedDecimal), (.char '.', .decimalDot)]  -- 204-206
  | .equal =>  -- 207-211
    [(.char '=', .doubleEqual), (.char '>', .arrow), (.str "a-zA-Z", .symbol),
     (.str "0-9!&*<|^$%@_-+~?/", .leadingGraphic)]
  | .doubleEqual => [(.str "a-zA-Z", .symbol), (.str "0-9!&*<=>|^$%@_-+~?/", .leadingGraphic)]  -- 212-214
  | .arrow => [(.str "a-zA-Z", .symbol), (.str "0-9!&*<=>|^$%@_-+~?/", .leadingGraphic)]  -- 215-217
  | .question =>  -- 218-221
    [(.char '?', .doubleQuestion), (.char '=', .questionEqual), (.char '@', .questionAt)]
  | .doubleQuestion => []  -- 222
  | .questionEqual => []  -- 223
  | .questionAt => []  -- 224
  | .backslash =>  -- 225-240
    [(.str "-+/", .backslashDone), (.char '~', .backslashTilde), (.char ':', .backslashColon),
     (.char '#', .backslashSharp), (.str "a-zA-Z", .backslashSymbol), (.str "0-9", .backslashDigit),
     (.char '%', .backslashPercent), (.str "!$@_", .backslashGraphic),
     (.str "&*^|", .backslashGraphicDone), (.str "=<>", .backslashGraphicPreEqual),
     (.char '.', .backslashDot), (.char '?', .backslashQuestion)]
  | .backslashDot => [(.char '.', .backslashDotDot)]  -- 241-242
  | .backslashDotDot => [(.char '.', .backslashEllipsis)]  -- 243-244
  | .backslashEllipsis => []  -- 245
  | .backslashQuestion =>  -- 246-248
    [(.str "?", .backslashDoubleQuestion), (.str "=", .backslashQuestionEqual)]
  | .backslashSharp =>  -- 249-253
    [(.str "nN", .backslashSharpN), (.str "rR", .backslashSharpR), (.str "kK", .backslashSharpK),
     (.str "aA", .backslashSharpA)]
  | .backslashSharpN => [(.str "eE", .backslashSharpNe)]  -- 254
  | .backslashSharpNe => [(.str "xX", .backslashSharpNex)]  -- 255
  | .backslashSharpNex => [(.str "tT", .backslashSharpNext)]  -- 256
  | .backslashSharpNext => []  -- 257
  | .backslashSharpR => [(.str "eE", .backslashSharpRe)]  -- 258
  | .backslashSharpRe => [(.str "sS", .backslashSharpRes)]  -- 259
  | .backslashSharpRes => [(.str "tT", .backslashSharpRest)]  -- 260
  | .backslashSharpRest => []  -- 261
  | .backslashSharpK => [(.str "eE", .backslashSharpKe)]  -- 262
  | .backslashSharpKe => [(.str "yY", .backslashSharpKey)]  -- 263
  | .backslashSharpKey => []  -- 264
  | .backslashSharpA => [(.str "lL", .backslashSharpAl)]  -- 265
  | .backslashSharpAl => [(.str "lL", .backslashSharpAll)]  -- 266
  | .backslashSharpAll => [(.char '-', .backslashSharpAllDash)]  -- 267
  | .backslashSharpAllDash => [(.str "kK", .backslashSharpAllK)]  -- 268
  | .backslashSharpAllK => [(.str "eE", .backslashSharpAllKe)]  -- 269
  | .backslashSharpAllKe => [(.str "yY", .backslashSharpAllKey)]  -- 270
  | .backslashSharpAllKey => [(.str "sS", .backslashSharpAllKeys)]  -- 271
  | .backslashSharpAllKeys => []  -- 272
  | .backslashDoubleQuestion => []  -- 273
  | .backslashQuestionEqual => []  -- 274
  | .backslashPercent =>  -- 275-278
    [(.str "-+*/", .backslashDone), (.str "a-zA-Z", .backslashSymbol),
     (.str "0-9!&<=>|^$%@_~?", .backslashGraphic)]
  | .backslashDone => []  -- 279
  | .backslashTilde => [(.char '=', .backslashTildeEqual)]  -- 280-281
  | .backslashTildeEqual => [(.char '=', .backslashDone)]  -- 282-283
  | .backslashColon => [(.char '=', .backslashDone), (.char ':', .backslashColonColon)]  -- 284-286
  | .backslashColonColon => []  -- 287
  | .backslashGraphic =>  -- 288-290
    [(.str "-0-9!&*<=>|^$%@_+~?/", .backslashGraphic), (.str "a-zA-Z", .backslashSymbol)]
  | .backslashGraphicDone =>  -- 291-293
    [(.str "-0-9!&*<=>|^$%@_+~?/", .backslashGraphic), (.str "a-zA-Z", .backslashSymbol)]
  | .backslashGraphicPreEqual =>  -- 294-297
    [(.char '=', .backslashGraphicDone), (.str "-0-9!&*<>|^$%@_+~?/", .backslashGraphic),
     (.str "a-zA-Z", .backslashSymbol)]
  | .backslashSymbol => [(.str "-+~?/!&*<=>|^$%@_0-9a-zA-Z", .backslashSymbol)]  -- 298-299
  | .backslashDigit =>  -- 300-302
    [(.str "-0-9!&*<=>|^$%@_+~?/", .backslashDigit), (.str "a-zA-Z", .backslashDigitAlpha)]
  | .backslashDigitAlpha =>  -- 303-305
    [(.str "-0-9!&*<=>|^$%@_+~?/", .backslashDigit), (.str "a-zA-Z", .backslashSymbol)]
  | .plus => [(.str "0-9", .signedDecimal), (.char '.', .decimalDot)]  -- 306-308
  | .tilde => [(.char '=', .tildeEqual)]  -- 309-310
  | .tildeEqual => [(.char '=', .tildeEqualEqual)]  -- 311-312
  | .tildeEqualEqual => []  -- 313
  | .operatorGraphic =>  -- 314-316
    [(.str "a-zA-Z", .symbol), (.str "0-9!&*<=>|^$%@_-+~?/", .leadingGraphic)]
  | .operatorGraphicPreEqual =>  -- 317-320
    [(.char '=', .operatorGraphic), (.str "a-zA-Z", .symbol),
     (.str "0-9!&*<>|^$%@_-+~?/", .leadingGraphic)]
  | .leadingGraphic =>  -- 321-324
    [(.str "0-9!&*<=>|^$%@_+~?/", .leadingGraphic), (.char '-', .leadingGraphic),
     (.str "a-zA-Z", .symbol)]
  | .leadingDollar =>  -- 325-329
    [(.str "0-9", .historyOrLeadingGraphic), (.str "!&*<=>|^$%@_+~?/", .leadingGraphic),
     (.char '-', .leadingGraphic), (.str "a-zA-Z", .symbol)]
  | .historyOrLeadingGraphic =>  -- 330-334
    [(.str "0-9", .historyOrLeadingGraphic), (.str "!&*<=>|^$%@_+~?/", .leadingGraphic),
     (.char '-', .leadingGraphic), (.str "a-zA-Z", .symbol)]
  | .leadingUnderscore =>  -- 335-338
    [(.str "0-9!&*<=>|^$%@_+~?/", .leadingGraphic), (.char '-', .leadingGraphic),
     (.str "a-zA-Z", .symbol)]
  | .symbol =>  -- 339-342
    [(.str "a-zA-Z0-9!&*<=>|^$%@_+~?/", .symbol), (.char '-', .symbol), (.char ':', .colonKeyword)]
  | .colonKeyword =>  -- 344-354
    [(.str "a-zA-Z", .cname), (.str "0-9", .cnameLeadingNumeric), (.str "!$%@_", .cnameLeadingGraphic),
     (.str "+/", .cnameBinop), (.char '-', .cnameBinop), (.str "*^&|", .cnameGraphicBinop),
     (.char '~', .cnameTilde), (.str "<>", .cnameAngle), (.char '=', .cnameEqual),
     (.char ':', .cnameColon)]
  | .cnameBinop => [(.char ':', .colonQname)]  -- 356-357
  | .cnameGraphicBinop =>  -- 358-362
    [(.char ':', .colonQname), (.str "0-9!&*<>|^$%@_+~?/=", .cnameLeadingGraphic),
     (.char '-', .cnameLeadingGraphic), (.str "a-zA-Z", .cname)]
  | .cnameTilde => [(.char '=', .cnameTildeEqual)]  -- 363-364
  | .cnameTildeEqual => [(.char ':', .colonQname), (.char '=', .cnameTildeDoubleEqual)]  -- 365-367
  | .cnameTildeDoubleEqual => [(.char ':', .colonQname)]  -- 368-369
  | .cnameAngle =>  -- 370-375
    [(.char ':', .colonQname), (.char '=', .cnameAngleEqual),
     (.str "0-9!&*<>|^$%@_+~?/", .cnameLeadingGraphic), (.char '-', .cnameLeadingGraphic),
     (.str "a-zA-Z", .cname)]
  | .cnameAngleEqual =>  -- 376-380
    [(.char ':', .colonQname), (.str "0-9!&*<>|^$%@_+~?/=", .cnameLeadingGraphic),
     (.char '-', .cnameLeadingGraphic), (.str "a-zA-Z", .cname)]
  | .cnameEqual => [(.char ':', .colonQname), (.char '=', .cnameBinop)]  -- 381-383
  | .cnameColon => [(.char '=', .cnameBinop)]  -- 384-385
  | .cnameLeadingNumeric =>  -- 386-389
    [(.str "0-9!&*<>|^$%@_+~?/=", .cnameLeadingNumeric), (.char '-', .cnameLeadingNumeric),
     (.str "a-zA-Z", .cnameNumericAlpha)]
  | .cnameNumericAlpha =>  -- 390-393
    [(.str "0-9!&*<>|^$%@_+~?/=", .cnameLeadingNumeric), (.char '-', .cnameLeadingNumeric),
     (.str "a-zA-Z", .cname)]
  | .cnameLeadingGraphic =>  -- 394-397
    [(.str "0-9!&*<>|^$%@_+~?/=", .cnameLeadingGraphic), (.char '-', .cnameLeadingGraphic),
     (.str "a-zA-Z", .cname)]
  | .cname =>  -- 398-401
    [(.char ':', .colonQname), (.str "a-zA-Z0-9!&*<>|^$%@_+~?/=", .cname), (.char '-', .cname)]
  | .colonQname =>  -- 403-413
    [(.str "a-zA-Z", .qname), (.str "0-9", .qnameLeadingNumeric), (.str "!$%@_", .qnameLeadingGraphic),
     (.str "+/", .qnameBinop), (.char '-', .qnameBinop), (.str "*^&|", .qnameGraphicBinop),
     (.char '~', .qnameTilde), (.str "<>", .qnameAngle), (.char '=', .qnameEqual),
     (.char ':', .qnameColon)]
  | .qnameBinop => []  -- 415
  | .qnameGraphicBinop =>  -- 416-419
    [(.str "0-9!&*<>|^$%@_+~?/=", .qnameLeadingGraphic), (.char '-', .qnameLeadingGraphic),
     (.str "a-zA-Z", .qname)]
  | .qnameTilde => [(.char '=', .qnameTildeEqual)]  -- 420-421
  | .qnameTildeEqual => [(.char '=', .qnameTildeDoubleEqual)]  -- 422-423
  | .qnameTildeDoubleEqual => []  -- 424
  | .qnameAngle =>  -- 425-429
    [(.char '=', .qnameAngleEqual), (.str "0-9!&*<>|^$%@_+~?/", .qnameLeadingGraphic),
     (.char '-', .qnameLeadingGraphic), (.str "a-zA-Z", .qname)]
  | .qnameAngleEqual =>  -- 430-433
    [(.str "0-9!&*<>|^$%@_+~?/=", .qnameLeadingGraphic), (.char '-', .qnameLeadingGraphic),
     (.str "a-zA-Z", .qname)]
  | .qnameEqual => [(.char '=', .qnameBinop)]  -- 434-435
  | .qnameColon => [(.char '=', .qnameBinop)]  -- 436-437
  | .qnameLeadingNumeric =>  -- 438-441
    [(.str "0-9!&*<>|^$%@_+~?/=", .qnameLeadingNumeric), (.char '-', .qnameLeadingNumeric),
     (.str "a-zA-Z", .qnameNumericAlpha)]
  | .qnameNumericAlpha =>  -- 442-445
    [(.str "0-9!&*<>|^$%@_+~?/=", .qnameLeadingNumeric), (.char '-', .qnameLeadingNumeric),
     (.str "a-zA-Z", .qname)]
  | .qnameLeadingGraphic =>  -- 446-449
    [(.str "0-9!&*<>|^$%@_+~?/=", .qnameLeadingGraphic), (.char '-', .qnameLeadingGraphic),
     (.str "a-zA-Z", .qname)]
  | .qname => [(.str "a-zA-Z0-9!&*<>|^$%@_+~?/=", .qname), (.char '-', .qname)]  -- 450-452
  | .quote => [(.str "'", .notAllowed), (.char '\\', .quoteEscape), (.otherwise, .quoteChar)]  -- 454-457
  | .quoteEscape => [(.str "\\'\"abefnrt0", .quoteChar), (.char '<', .quoteEscapeLess)]  -- 458-460
  | .quoteEscapeLess => [(.str "0-9a-fA-F", .quoteHexCharDigits)]  -- 461-462
  | .quoteHexCharDigits => [(.str "0-9a-fA-F", .quoteHexCharDigits), (.char '>', .quoteChar)]  -- 463-465
  | .quoteChar => [(.char '\'', .character)]  -- 466-467
  | .character => []  -- 468
  | .stringStart =>  -- 472-477
    [(.char '"', .twoDoubleQuotes), (.char '\\', .drmStringEscape), (.str "\t !#-[]-~", .drmStringBody),
     (.extensions, .drmStringBody)]
  | .twoDoubleQuotes => [(.char '"', .multiStringStart)]  -- 478-480
  | .drmStringBody =>  -- 483-487
    [(.char '"', .drmStringEnd), (.char '\\', .drmStringEscape), (.str "\t !#-[]-~", .drmStringBody),
     (.extensions, .drmStringBody)]
  | .drmStringEnd => []  -- 488
  | .drmStringEscape =>  -- 489-491
    [(.str "\\'\"abefnrt0", .drmStringBody), (.char '<', .drmStringEscapeLess)]
  | .drmStringEscapeLess => [(.str "0-9a-fA-F", .drmStringHexCharDigits)]  -- 492-493
  | .drmStringHexCharDigits =>  -- 494-496
    [(.str "0-9a-fA-F", .drmStringHexCharDigits), (.char '>', .drmStringBody)]
  | .multiStringStart =>  -- 499-504
    [(.char '"', .multiStringStart), (.char '\\', .multiStringEscape),
     (.str "\t\r\n !#-[]-~", .multiStringBody), (.extensions, .multiStringBody)]
  | .multiStringBody =>  -- 507-512
    [(.char '"', .multiStringEnd), (.char '\\', .multiStringEscape), (.char '\x0c', .notAllowed),
     (.otherwise, .multiStringBodyContinue)]
  | .multiStringBodyContinue =>  -- 513-517
    [(.char '"', .multiStringEnd), (.char '\\', .multiStringEscape), (.char '\x0c', .notAllowed),
     (.otherwise, .multiStringBodyContinue)]
  | .multiStringEnd =>  -- 518-523
    [(.char '"', .multiStringEnd), (.char '\\', .multiStringEscape), (.char '\x0c', .notAllowed),
     (.otherwise, .multiStringBody)]
  | .multiStringEscape =>  -- 524-527
    [(.str "\\'\"abefnrt0", .multiStringBodyContinue), (.char '<', .multiStringEscapeLess)]
  | .multiStringEscapeLess => [(.str "0-9a-fA-F", .multiStringHexCharDigits)]  -- 528-529
  | .multiStringHexCharDigits =>  -- 530-532
    [(.str "0-9a-fA-F", .multiStringHexCharDigits), (.char '>', .multiStringBodyContinue)]
  | .rawStringStart =>  -- 536-540
    [(.char '"', .rawTwoDoubleQuotes), (.str "\t !#-~", .rawOneLineStringBody),
     (.extensions, .rawOneLineStringBody)]
  | .rawTwoDoubleQuotes => [(.char '"', .rawMultiStringStart)]  -- 541-543
  | .rawOneLineStringBody =>  -- 546-549
    [(.char '"', .rawOneLineStringEnd), (.str "\t !#-~", .rawOneLineStringBody),
     (.extensions, .rawOneLineStringBody)]
  | .rawOneLineStringEnd => []  -- 550
  | .rawMultiStringStart =>  -- 553-556
    [(.char '"', .rawMultiStringStart), (.otherwise, .rawMultiStringBody)]
  | .rawMultiStringBody =>  -- 559-562
    [(.char '"', .rawMultiStringEnd), (.otherwise, .rawMultiStringBodyContinue)]
  | .rawMultiStringBodyContinue =>  -- 563-565
    [(.char '"', .rawMultiStringEnd), (.otherwise, .rawMultiStringBodyContinue)]
  | .rawMultiStringEnd => [(.char '"', .rawMultiStringEnd), (.otherwise, .rawMultiStringBody)]  -- 566-569
  | .decimal =>  -- 571-577
    [(.str "0-9", .decimal), (.char '/', .decimalSlash), (.char '.', .decimalDot),
     (.str "eEsSdDxX", .decimalE), (.str "ABCF-RT-WYZabcf-rt-wyz", .numericAlpha),
     (.str "_", .decimalUnderscore)]
  | .decimalUnderscore => [(.str "0-9", .decimal)]  -- 578-579
  | .decimalSlash =>  -- 580-584
    [(.str "0-9", .ratio), (.str "a-zA-Z", .numericAlpha), (.str "!&*<=>|^$%@_+~?/", .leadingNumeric),
     (.char '-', .leadingNumeric)]
  | .numericAlpha =>  -- 585-588
    [(.str "a-zA-Z", .symbol), (.str "0-9!&*<=>|^$%@_+~?/", .leadingNumeric),
     (.char '-', .leadingNumeric)]
  | .leadingNumeric =>  -- 589-592
    [(.str "a-zA-Z", .numericAlpha), (.str "0-9!&*<=>|^$%@_+~?/", .leadingNumeric),
     (.char '-', .leadingNumeric)]
  | .ratio =>  -- 594-597
    [(.str "0-9", .ratio), (.str "a-zA-Z", .numericAlpha), (.str "-!&*<=>|^$%@_+~?/", .leadingNumeric)]
  | .signedDecimal =>  -- 599-604
    [(.str "0-9", .signedDecimal), (.char '/', .signedDecimalSlash), (.char '.', .decimalDot),
     (.str "eEsSdDxX", .fpE), (.char '_', .signedDecimalUnderscore)]
  | .signedDecimalUnderscore => [(.str "0-9", .signedDecimal)]  -- 605-606
  | .signedDecimalSlash => [(.str "0-9", .signedRatio)]  -- 607-608
  | .signedRatio => [(.str "0-9", .signedRatio)]  -- 609-610
  | .decimalDot => [(.str "0-9", .decimalDotDecimal), (.str "eEsSdDxX", .fpE)]  -- 612-614
  | .decimalDotDecimal =>  -- 615-618
    [(.char '_', .decimalDotDecimalUnderscore), (.str "0-9", .decimalDot), (.str "eEsSdDxX", .fpE)]
  | .decimalDotDecimalUnderscore => [(.str "0-9", .decimalDotDecimal)]  -- 619-620
  | .fpE => [(.char '-', .fpESign), (.char '+', .fpESign), (.str "0-9", .fpExp)]  -- 621-624
  | .fpESign => [(.str "0-9", .fpExp)]  -- 625-626
  | .fpExp => [(.str "0-9", .fpExp), (.char '_', .fpExpUnderscore)]  -- 627-629
  | .fpExpUnderscore => [(.str "0-9", .fpExp)]  -- 630-631
  | .decimalE =>  -- 633-638
    [(.str "a-zA-Z", .symbol), (.str "[0-9]", .decimalExp), (.str "!&*<=>|^$%@_~?/", .leadingNumeric),
     (.char '-', .decimalESign), (.char '+', .decimalESign)]
  | .decimalExp =>  -- 639-643
    [(.str "0-9", .decimalExp), (.str "a-zA-Z", .numericAlpha),
     (.str "!&*<=>|^$%@_+~?/", .leadingNumeric), (.str "-", .leadingNumeric)]
  | .decimalESign =>  -- 644-648
    [(.str "0-9", .decimalExp), (.str "a-zA-Z", .numericAlpha),
     (.str "!&*<=>|^$%@_+~?/", .leadingNumeric), (.str "-", .leadingNumeric)]

end Verif.Reader
