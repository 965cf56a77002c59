# Generates /verif/properties.jsonl. Keep the list in one readable place.
import json
P=[]
def p(title,statement,quantifier,why,anchors):
    P.append(dict(id="C%02d"%(len(P)+1),title=title,statement=statement,quantifier=quantifier,why_tests_cant=why,anchors=anchors))

p("Truncation keeps an exact prefix and rejects bad arguments",
  "Encoding.Truncate(maxLen, stride) returns an error exactly when stride >= maxLen or maxLen = 0; if maxLen >= the number of tokens it returns the encoding unchanged; otherwise every per-token array of the result (ids, type ids, tokens, offsets, masks, words) is exactly the first maxLen entries of the input array.",
  "every encoding whose per-token arrays have equal length, every maxLen >= 0 and every stride >= 0",
  "Needs all lengths and all (maxLen, stride) pairs; tests sample a handful.",
  ["encoding.go: Encoding.Truncate"])
p("Truncation windows lose nothing and overlap by exactly the stride",
  "When Encoding.Truncate shortens an encoding, the result followed by its Overflowing parts, with the first `stride` tokens of every part removed, is the original token sequence, in every per-token array; each part starts with the last `stride` tokens of the part before it; no part is longer than maxLen, and the number of parts is ceil((len - maxLen)/(maxLen - stride)).",
  "every encoding, every maxLen > 0, every 0 <= stride < maxLen",
  "Window arithmetic has corner cases for every (len, maxLen, stride) triple; only an induction over the window loop covers them all.",
  ["encoding.go: Encoding.Truncate", "encoding.go: getCurrentPart"])
p("Right padding is exact",
  "Encoding.Pad(target, id, typeId, token, Right) leaves the first len tokens of every per-token array unchanged and appends target - len pads (given id, type id and token, special mask 1, attention 0, offsets [0,0], word -1); an encoding already at least `target` long is unchanged; overflowing parts are padded the same way.",
  "every encoding, target length, pad values",
  "Unbounded lengths and nested overflow lists.",
  ["encoding.go: Encoding.Pad", "encoding.go: Encoding.pad"])
p("Left padding is exact",
  "Encoding.Pad(target, id, typeId, token, Left) puts target - len pads before the tokens of every per-token array and keeps the original entries after them, never failing.",
  "every encoding, target length, pad values",
  "The claim is about every encoding; the one call a test makes cannot show that the failure is universal.",
  ["encoding.go: Encoding.Pad", "encoding.go: Encoding.pad"])
p("Per-token arrays stay aligned over every history",
  "Starting from an encoding whose seven per-token arrays have equal length (recursively in Overflowing), any sequence of Truncate, right Pad, MergeWith and post-processing keeps all seven arrays equally long, recursively in Overflowing.",
  "every finite sequence of operations with arbitrary arguments",
  "Histories are unbounded.",
  ["encoding.go: Truncate, Pad, MergeWith", "processor/bert.go: Process", "processor/roberta.go: Process"])
p("Merging concatenates tokens and shifts offsets",
  "MergeWith(pair, growing) yields ids, type ids, tokens, words and masks that are the concatenation of both encodings; offsets of the first part are unchanged and those of the second are shifted by the end of the last offset of the first when growing, otherwise unchanged. Merge of a list is the left-to-right iteration, and the resulting token sequence does not depend on how the merges are bracketed.",
  "all pairs and lists of encodings, both values of growing",
  "Associativity and concatenation over arbitrary lists need induction.",
  ["encoding.go: Encoding.MergeWith", "encoding.go: Encoding.Merge", "tokenizer.go: MergeEncodings"])
p("Merging overflow combines every window pair",
  "After MergeWith, the Overflowing list contains, at top level and in order, own overflow i merged with the pair and with each of the pair's overflows, then self merged with each of the pair's overflows: exactly m*(n+1)+n entries for m and n overflow parts.",
  "all encodings with any number of overflow parts",
  "The recursion through cloned overflow lists is unbounded in breadth and depth.",
  ["encoding.go: Encoding.MergeWith"])
p("Merging keeps sequence ranges of both inputs",
  "After MergeWith, every token position that belonged to sequence s in the first encoding still belongs to s, and every position i of the pair that belonged to s belongs to s at len(first)+i.",
  "all pairs of encodings and all sequence-range maps",
  "Quantifies over all maps from sequence id to range, including both encodings sharing an id.",
  ["encoding.go: Encoding.MergeWith", "util/util.go: DeepCopy", "encoding.go: Token2Sequence"])
p("Truncating to a budget meets the budget",
  "TruncateEncodings with MaxLength = L > 0 returns encodings whose total length is exactly min(L, original total) when it succeeds, for every strategy, and removes tokens only from the encodings the strategy names.",
  "all pairs of lengths, all budgets, all strategies",
  "Loop over token counts with unbounded lengths; tests cover a few.",
  ["util.go: TruncateEncodings", "encoding.go: Encoding.Truncate"])
p("Batch padding makes every encoding the same length",
  "PadEncodings with BatchLongest gives every encoding the length of the longest; with Fixed(n) gives every encoding length max(n, its length); in both cases each original token sequence is a prefix of the padded one (right padding).",
  "every batch of encodings, every strategy",
  "Unbounded batch sizes and lengths.",
  ["util.go: PadEncodings", "encoding.go: Encoding.Pad"])
p("Character and token lookups agree",
  "Char2Token(pos) returns the first token whose offsets contain pos, and reports not-found exactly when no token contains pos; Token2Chars(i) returns the offsets of token i for 0 <= i < len and not-found otherwise, never failing; so Token2Chars(Char2Token(pos)) contains pos; Token2Word(i) is the word of token i.",
  "every encoding and every integer position",
  "Out-of-range and boundary positions of every encoding.",
  ["encoding.go: Char2Token, Token2Chars, Token2Word, Char2Word"])
p("Word lookup returns exactly the word's tokens",
  "Word2Tokens(w) returns (s, e) such that the tokens with word index w are exactly those at positions s..e-1, whenever some token has word w, and not-found otherwise. Word2Chars(w) is the span from the first such token's start to the last one's end.",
  "every encoding whose words are grouped in order (as the tokenizer produces), with special tokens (-1) anywhere, and every w",
  "Depends on the position of every special token and every word boundary.",
  ["encoding.go: Word2Tokens, Word2Chars"])
p("Padding a truncated encoding does not corrupt its overflow",
  "Truncate followed by right Pad gives the same tokens as padding independent copies of the truncated encoding and its overflow parts: writes made for one part are never visible in another.",
  "all encodings, truncation lengths, strides, capacities and pad lengths",
  "Depends on slice capacity and sharing of backing arrays, invisible in value-level tests with small targets.",
  ["encoding.go: Truncate, getCurrentPart, Pad, pad"])
p("Added tokens get fresh, stable ids and round-trip",
  "After any history of AddTokens and AddSpecialTokens calls, every non-empty added content has an id, the id maps back to that content, distinct contents have distinct ids, ids assigned by earlier calls never change, and ids of added tokens absent from the model are at least the model's vocabulary size.",
  "all models (injective vocabularies with ids below the size), all sequences of add calls with arbitrary, repeated contents",
  "Unbounded histories with duplicates and overlaps with the model's vocabulary.",
  ["added-vocabulary.go: AddTokens, AddSpecialTokens, TokenToId, IdToToken"])
p("Adding tokens reports how many it accepted",
  "AddTokens and AddSpecialTokens return the number of distinct non-empty given contents that are known neither to the model nor as added tokens, and GetVocabSize(true) grows by exactly that number.",
  "all models, all histories",
  "Counts over arbitrary lists with repetitions.",
  ["added-vocabulary.go: AddTokens"])
p("Reading the vocabulary does not change the tokenizer",
  "GetVocab(true/false), GetVocabSize, TokenToId and IdToToken are queries: calling them in any order and any number of times does not change the answers of later queries; in particular GetVocabSize(true) is the number of distinct tokens.",
  "all tokenizers, all sequences of queries",
  "Hidden mutation shows only after particular query orders.",
  ["tokenizer.go: GetVocab, GetVocabSize", "model/*: GetVocab"])
p("Splitting on added tokens covers the text",
  "The pieces produced by the added-token splitter tile the input: in order, contiguous, from 0 to the end, and every piece carrying an id is an occurrence reported by the matcher.",
  "all match lists the regular expressions can report, all texts",
  "All overlap patterns between matches of different added tokens.",
  ["added-vocabulary.go: findMatches, splitWithIndices, ExtractAndNormalize"])
p("Added tokens are matched leftmost first",
  "The splitter selects, scanning left to right, the leftmost not-overlapping match (ties by lowest registration order), independent of the order tokens were added.",
  "all match lists",
  "All arrangements of overlapping matches.",
  ["added-vocabulary.go: findMatches"])
p("Decode drops exactly unknown and skipped special ids",
  "Decode(ids, skip) equals decoding the subsequence of known tokens of ids in order, without special tokens when skip is set and with them otherwise.",
  "all id sequences, vocabularies, both flags",
  "All id sequences.",
  ["tokenizer.go: Decode", "added-vocabulary.go: IdToToken, IsSpecialToken"])
p("Batch encoding is order-preserving under every schedule",
  "EncodeBatch returns, under every interleaving of its goroutines, the list whose i-th entry is the encoding of the i-th input (then batch-padded), or the error of one of the failing inputs when some input fails.",
  "every batch, every schedule of the worker goroutines",
  "Schedules cannot be enumerated by running.",
  ["tokenizer.go: EncodeBatch"])
p("Batch decoding is order-preserving under every schedule",
  "DecodeBatch returns the decoded strings in input order with none missing under every interleaving of its goroutines.",
  "every batch, every schedule",
  "The bad schedules are rare in practice and not reproducible.",
  ["tokenizer.go: DecodeBatch"])
p("BERT post-processing adds exactly the announced tokens",
  "BertProcessing.Process with special tokens yields [CLS] A [SEP] or [CLS] A [SEP] B [SEP] in ids and tokens, with mask 1 exactly on the special positions, and grows the length by exactly AddedTokens(isPair); without special tokens it returns A followed by B.",
  "every encoding and optional pair, with overflow",
  "Arbitrary lengths and overflow lists.",
  ["processor/bert.go: Process, addSpecialToken, pairAddSpecialToken, AddedTokens"])
p("RoBERTa post-processing works for every configuration",
  "RobertaProcessing.Process yields <s> A </s> or <s> A </s></s> B </s>, grows the length by exactly AddedTokens(isPair), for every value of its trimOffsets and addPrefixSpace options and never fails.",
  "all encodings, all option values",
  "All configurations and inputs.",
  ["processor/roberta.go: Process, AddedTokens"])
p("Template post-processing follows the template",
  "TemplateProcessing.Process concatenates, in template order, the sequences with the piece's type id and the special tokens' ids; with special tokens enabled its length is the sum of the used sequences' lengths plus AddedTokens(isPair), and without them no special token appears.",
  "all templates whose special tokens are in the table and which use $B only in the pair template, all encodings",
  "All templates.",
  ["processor/template.go: ApplyTemplate, countAdded, Process, AddedTokens"])
p("Encoded length respects the configured maximum",
  "With truncation enabled, MaxLength = L greater than the number of special tokens the processor adds, and special tokens requested, the post-processed encoding has at most L tokens, and exactly L when the input was longer.",
  "all inputs, pairs, processors (BERT, RoBERTa, template), budgets and strategies",
  "All length/budget combinations.",
  ["tokenizer.go: PostProcess", "util.go: TruncateEncodings", "processor/*.go: AddedTokens"])
p("Byte-level alphabet is a bijection and decoding inverts it",
  "The byte-to-character table maps the 256 bytes to 256 distinct printable characters, the inverse table inverts it, and ByteLevel.Decode of any segmentation of the byte-level image of a text is that text.",
  "all byte strings and all segmentations into tokens",
  "All byte strings; all token boundaries.",
  ["pretokenizer/bytelevel.go: GenerateBytesChar, CharBytes, Decode, PreTokenize"])
p("Hand-written UTF-8 encoder is correct",
  "encodeUTF8(r) is the UTF-8 encoding of r for every Unicode scalar value, and distinct code points give distinct, prefix-free byte sequences.",
  "all 1,112,064 scalar values",
  "Bit-level claim over the full range.",
  ["pretokenizer/bytelevel.go: encodeUTF8"])
p("Offset trimming stays inside the token",
  "Trimming byte-level offsets maps every span [a,b] with a <= b to a span [a',b'] with a <= a' <= b' <= b, leaves tokens without leading or trailing space markers unchanged, and changes no other array.",
  "all tokens and offsets, both addPrefixSpace values",
  "All tokens and spans.",
  ["pretokenizer/bytelevel.go: processOffsets"])
p("BPE tokens tile the word",
  "The tokens MergeWord returns for a word have contiguous offsets starting at 0 and ending at the word's byte length, with strictly increasing bounds, for every merge table.",
  "all words, vocabularies and merge tables, with and without dropout (any random outcomes)",
  "All merge tables and heap orders; random dropout.",
  ["model/bpe/word.go: MergeAll, GetOffsets", "model/bpe/bpe.go: MergeWord, WordToTokens"])
p("BPE merging stops only when nothing can be merged",
  "Without dropout, after MergeAll no two adjacent symbols form a pair in the merge table, and the loop terminates on every word.",
  "all words and merge tables",
  "Priority-queue loop with stale entries over all inputs.",
  ["model/bpe/word.go: MergeAll"])
p("BPE merging follows merge priority",
  "Without dropout, each step merges a pair of lowest rank among the adjacent pairs present, and the final symbols are obtained from the word by a sequence of merges from the table.",
  "all words and merge tables",
  "Stale heap entries could be applied; only an invariant excludes it.",
  ["model/bpe/word.go: MergeAll"])
p("The BPE cache is transparent and bounded",
  "Tokenizing through the cache gives the same tokens as without it after any history of tokenizations and cache clears, and the cache never holds more entries than its capacity.",
  "all histories of words, all capacities",
  "Unbounded histories; eviction/insert order.",
  ["model/bpe/cache.go", "model/bpe/bpe.go: TokenizeWithCache"])
p("Training merge rewrites every occurrence",
  "Word.Merge(a, b, c) replaces, scanning left to right, every adjacent a b by c, preserves the total byte length, and reports pair-count changes that turn the pair counts of the old word into those of the new word.",
  "all words and pairs, including overlapping occurrences",
  "Overlaps like a a a; arbitrary lengths.",
  ["model/bpe/word.go: Word.Merge"])
p("WordPiece is greedy longest-match-first",
  "Tokenize returns either the unique sequence in which each token is the longest vocabulary entry (with continuation prefix after the first) that is a prefix of the rest of the word, or the single unknown token when some remainder has no entry or the word is too long.",
  "all words and vocabularies",
  "All vocabularies.",
  ["model/wordpiece/wordpiece.go: Tokenize"])
p("WordPiece output reconstructs the word",
  "When no unknown is produced, stripping the continuation prefix and concatenating token values gives the word, offsets are contiguous from 0 to the number of characters, and decoding with the WordPiece decoder (no clean-up) gives the words joined by spaces.",
  "all words, vocabularies and lists of words",
  "All inputs.",
  ["model/wordpiece/wordpiece.go: Tokenize", "decoder/wordpiece.go: DecodeChain"])
p("Word-level lookup",
  "WordLevel.Tokenize returns exactly one token with the word's id if present, else the unknown token's id, else an error; its span is the whole word.",
  "all vocabularies and words",
  "All vocabularies.",
  ["model/wordlevel/wordlevel.go: Tokenize"])
p("Unigram segmentation is a best segmentation",
  "The Viterbi search returns a segmentation whose pieces concatenate to the input and whose total score is maximal among all segmentations into vocabulary pieces of allowed length and single unknown characters.",
  "all inputs, vocabularies and scores (over an ordered commutative group)",
  "Exponentially many segmentations.",
  ["model/unigram/unigram.go: tokenizeWithViterbi"])
p("Byte fallback round-trips",
  "Encoding an unknown text as <0xHH> tokens and decoding them with the byte-fallback decoder returns the text, and the decoder returns one replacement character per byte exactly for maximal byte runs that are not valid UTF-8.",
  "all texts and token sequences",
  "All byte sequences.",
  ["model/unigram/unigram.go: tokenizeWithByteFallback", "decoder/byte-fallback.go: DecodeChain"])
p("Decoders are well-behaved string maps",
  "Fuse and sequence decoding: Fuse concatenates; Sequence applies decoders in order; Decode is the concatenation of DecodeChain; BPE decoding of suffix-terminated words gives them joined by single spaces; Strip removes at most the configured number of given characters at each end and nothing else; CTC removes only consecutive duplicates and pads.",
  "all token lists and parameters",
  "All inputs.",
  ["decoder/*.go"])
p("Initial alignment maps every byte to its character",
  "NewNormalizedFrom(s): for every byte position in s, its alignment is the byte range of the character containing it, and the original range of any character-aligned normalized range is the same range.",
  "all strings",
  "All strings with mixed character widths.",
  ["normalizer/normalized.go: NewNormalizedFrom, createAligns, ConvertOffset"])
p("Transformations keep text and alignment consistent",
  "Transform with a change list produces the text of the listed characters, with exactly one alignment per byte, every alignment within the original and non-decreasing.",
  "all strings and all change lists that consume the whole text",
  "All change lists.",
  ["normalizer/normalized.go: TransformRange, Transform"])
p("Normalization operations have their text meaning",
  "Filter keeps exactly the characters satisfying the predicate; Prepend and Append add text at the ends; LStrip, RStrip and Strip remove exactly leading and trailing white space; each keeps one alignment per byte.",
  "all strings and predicates",
  "All strings.",
  ["normalizer/normalized.go: Filter, Prepend, Append, lrstrip, Transform"])
p("Patterns tile the string",
  "FindMatches of every pattern returns spans that are contiguous from 0 to the length of the string, with Match marking exactly the matched spans; inverting flips flags and nothing else.",
  "all strings; rune and function patterns exactly, regex patterns for every match list a regex engine may return",
  "All strings and match lists.",
  ["normalizer/pattern.go"])
p("Split behaviours lose only what they say",
  "NormalizedString.Split: Isolated, MergedWithPrevious, MergedWithNext and Contiguous pieces concatenate to the whole text; Removed pieces concatenate to the text without matches; merged behaviours attach each delimiter to its neighbour.",
  "all texts and tilings",
  "All tilings.",
  ["normalizer/normalized.go: Split"])
p("Byte/character offset conversion is exact",
  "Converting byte offsets to character offsets gives the number of characters before the offset, and is inverse to the character-to-byte conversion at character boundaries, for every text.",
  "all texts, all offsets",
  "Multi-byte texts of every shape.",
  ["normalizer/normalized.go: BytesToChar, CharToBytes", "pretokenizer.go: BytesToCharOffsetConverter"])
p("Pre-tokenized splits become an aligned encoding",
  "IntoEncoding yields one entry per token in order, all arrays equally long, word index equal to the index of the split (or the given word), and fails if some split has not been tokenized.",
  "all split lists",
  "All split lists.",
  ["pretokenizer.go: IntoEncoding, Split, Tokenize"])
p("Word counting in training is schedule-independent",
  "The word counts Train passes to the trainer are the multiset counts of the words of all lines, under every interleaving of readers and the aggregator.",
  "all files, all schedules",
  "Schedules.",
  ["tokenizer.go: Train, processChunk", "model/bpe/trainer.go: ProcessTokens"])
p("Vocabulary files round-trip",
  "Saving a WordPiece (or WordLevel/BPE vocab) model whose ids are 0..n-1 and loading the file gives the same token-to-id map.",
  "all vocabularies with ids 0..n-1 and tokens without line breaks or outer spaces",
  "All vocabularies.",
  ["model/wordpiece/wordpiece.go: Save, ReadFiles", "model/bpe/bpe.go: Save"])
p("Merge-file parsing",
  "CreateMerges gives each well-formed merge line a distinct rank in file order mapped to the id of the concatenated token, and fails when an operand or the result is missing from the vocabulary.",
  "all vocabularies and merge lists",
  "All lists, including malformed lines.",
  ["model/bpe/bpe.go: CreateMerges"])
p("Charsmap parsing and prefix search are safe",
  "Parse of a well-formed charsmap blob recovers its trie and text; CommonPrefixSearch returns exactly the values of the stored keys that are prefixes of the query, in order of length.",
  "all blobs, all queries, all valid double arrays",
  "All tries.",
  ["spm/spm-precompiled.go: Parse, CommonPrefixSearch, Transform"])
p("Metaspace round-trips text",
  "Replacing spaces by the meta symbol, prefixing, splitting and then decoding returns the original text for every text not containing the meta symbol.",
  "all texts",
  "All texts.",
  ["pretokenizer/metaspace.go: PreTokenize, DecodeChain"])
p("Template and configuration parsing",
  "Piece parsing: '$', '$A', '$B', '$<n>' and 'name', each optionally with ':<typeid>', produce the documented piece; everything else is an error. Truncation and padding configuration maps give the documented parameters.",
  "all strings / configuration values",
  "All strings.",
  ["processor/template.go: NewPiece, extractId", "pretrained/padding.go", "pretrained/truncation.go"])
p("Sequence id queries",
  "GetSequenceIds returns for each token the id of the sequence containing it; Token2Sequence agrees with it; SequenceRange returns the sequence's token range; all succeed for every encoding.",
  "all encodings",
  "All range maps.",
  ["encoding.go: GetSequenceIds, Token2Sequence, SequenceRange"])
p("Sequence post-processing adds each sequence and each announced token once",
  "processor.Sequence applies its processors one after the other; AddedTokens is the sum of theirs; the result contains each input sequence exactly once and is longer than the inputs by exactly AddedTokens.",
  "all lists of processors that add exactly what they announce, all encodings and pairs",
  "Lists of processors and encodings are unbounded; the repeated pair only shows with two processors and a pair.",
  ["processor/sequence.go: Process", "processor/sequence.go: AddedTokens"])
p("BPE merging with dropout terminates",
  "With a dropout probability set, MergeWord returns for every word, whatever the random draws.",
  "all words, merge tables and sequences of random outcomes",
  "Random outcomes are not controlled by a test, and non-termination shows as a hang at best.",
  ["model/bpe/word.go: MergeAll"])
p("BPE prefix and suffix symbols",
  "With a continuing-subword prefix, every rune but the first is looked up with the prefix; with an end-of-word suffix, the last rune is looked up with the suffix.",
  "all words, prefixes and suffixes",
  "All words and vocabularies.",
  ["model/bpe/bpe.go: MergeWord"])
p("Model token offsets count bytes of the word",
  "The offsets of the tokens a model returns for a word cover the bytes of the word, since PreTokenizedString.IntoEncoding converts them as byte offsets.",
  "all words, for each model",
  "All words with multi-byte characters at every position.",
  ["model/wordpiece/wordpiece.go: Tokenize", "model/wordlevel/wordlevel.go: Tokenize", "pretokenizer.go: IntoEncoding"])
p("Byte fallback is used only for unknown text",
  "A Unigram model with byte fallback tokenizes known text with its vocabulary and uses byte tokens only for characters that no vocabulary piece covers.",
  "all vocabularies, scores and texts",
  "All texts and vocabularies.",
  ["model/unigram/unigram.go: Tokenize", "model/unigram/unigram.go: tokenizeWithByteFallback"])
p("Precompiled NormalizeString maps the whole text",
  "spm Precompiled.NormalizeString returns the concatenation, over all graphemes of the text, of what each grapheme is mapped to (the grapheme's own replacement when it is short and stored in the map, else that of its characters).",
  "all maps, all texts, all segmentations into graphemes",
  "a test that normalises a single grapheme, or a text without mapped graphemes, cannot see that everything after the first mapped grapheme is dropped",
  ["spm/spm-precompiled.go:186-234"])
p("Precompiled normalizer rewrites the text and keeps alignments",
  "normalizer Precompiled.Normalize replaces each mapped character by its replacement, leaves the others, and aligns each output character with the input character it came from.",
  "all maps, all texts",
  "alignments are only observed through offsets of tokens, and single-character tests cannot tell the last character from the right one",
  ["normalizer/precompiled.go:48-102", "normalizer/precompiled.go:20-46"])
p("Replace substitutes exactly the matches and keeps the alignment",
  "NormalizedString.Replace with a pattern substitutes every match by the content, leaves everything else as it was, keeps the original text, and aligns every byte of the result with the original bytes it came from (all bytes of a replacement with the whole match).",
  "all texts, all patterns whose matches lie on character boundaries, all contents",
  "Every match shifts all later ones, so the correctness of the loop depends on all lengths of matches and contents together.",
  ["normalizer/normalized.go: Replace, TransformRange"])
p("Template validation accepts exactly the usable templates",
  "TemplateProcessingBuilder.Validate succeeds exactly if the pair template uses both sequences and every special token of the single and pair templates is in the table of special tokens; otherwise it returns an error.",
  "all templates and tables",
  "Quantifies over all templates and tables.",
  ["processor/template.go: Validate"])
p("Template post-processing loses no token",
  "Post-processing a pair of sequences with a template, also with the default template, keeps all tokens of both sequences in order.",
  "all encodings and templates",
  "Quantifies over all encodings; the default template is never tested with a pair.",
  ["processor/template.go: DefaultTemplateProcessing, Process, ApplyTemplate"])
p("Encoding a text locates every token in it",
  "Encoding a text by a tokenizer (added tokens, pre-tokenizer, model) succeeds, and the text falls into consecutive parts such that the entries of the encoding are, in order, the tokens the model gives for each part or the single token of an added token that is written like the part; the offsets of every entry are the place of its piece in the whole text, in whole characters. If the model's tokens cover their text and the pre-tokenizer leaves nothing out, the offsets cover the text without gap or overlap. Every occurrence of an added token chosen by the matcher is an entry. A list of words is encoded like its words one after the other, with the word's number as word index.",
  "for all texts, added tokens, pre-tokenizers that only cut, and models that locate their tokens",
  "Offsets are converted through slices of slices of the text and shifted again at the end; tests compare a few texts, mostly ASCII.",
  ["added-vocabulary.go:472-526", "tokenizer.go:390-448", "tokenizer.go:555-585", "pretokenizer.go:143-255"])
p("Pre-tokenizers only cut the text",
  "Whitespace, WhitespaceSplit, Punctuation, Digits, CharDelimiterSplit, Split, BertPreTokenizer, UnicodeScript and sequences of them turn consecutive parts of a text into consecutive parts of the same text, in order and none empty, keep the parts that already have tokens, and leave out only what they are told to remove (white space, delimiters).",
  "for all texts, patterns, character classes and behaviours",
  "Which text is lost depends on the pattern's spans and on where the first script begins; tests look at sentences that start with a letter.",
  ["pretokenizer/whitespace.go:22-68", "pretokenizer/punctuation.go:59-75", "pretokenizer/digits.go:23-53", "pretokenizer/delimiter.go:20-36", "pretokenizer/split.go:26-61", "pretokenizer/bert.go:75-97", "pretokenizer/unicode-script.go:31-111", "pretokenizer/sequence.go:19-30"])
p("Byte-level pre-tokenization keeps text, places and found tokens",
  "ByteLevel.PreTokenize puts a space in front of the text if AddPrefixSpace is set and there is none, and cuts the text into the matches of its regular expression and the stretches between them, in order. The text of each piece is the byte-level image of its bytes; the piece knows which part of the original text it stands for, and every character of the image is aligned with the original character its byte comes from. Pieces that already have tokens (added tokens) are kept.",
  "for all texts, both settings of AddPrefixSpace, all classes of letters and digits",
  "The text is changed twice with alignments computed from the change map; whether every piece of every text stays connected with its original cannot be seen on a few sentences, and added tokens are only lost in the combination of two features.",
  ["pretokenizer/bytelevel.go:18", "pretokenizer/bytelevel.go:182-222", "pretokenizer.go:99-113", "normalizer/normalized.go:1073-1094"])
p("Byte-level BPE encodes every text and decodes to it",
  "A tokenizer with the byte-level pre-tokenizer and a BPE model that contains the byte-level alphabet encodes every text in which no added token occurs: the tokens are the images of consecutive pieces of the UTF-8 bytes of the text (with a space in front if AddPrefixSpace asks for it), decoding them gives exactly these bytes, also when pieces end inside a character, and the offsets of each token go from the start of the character of its first byte to the end of the character of its last byte in the original text.",
  "for all texts, all merge tables consistent with the vocabulary, both settings of AddPrefixSpace",
  "Round trip and offsets pass through cutting, two changes of the text, merging and two conversions of offsets; multi-byte characters split over tokens are rarely tested.",
  ["pretokenizer/bytelevel.go:182-244", "model/bpe/bpe.go:464-493", "tokenizer.go:390-448", "pretokenizer.go:143-255"])
p("The vocabulary of a Unigram model answers by name and by id consistently",
  "For every Unigram model: TokenToId(t) finds t exactly if some vocabulary entry has the token t, it answers the index of the last such entry, GetVocab agrees with it, IdToToken answers exactly for the ids from 0 to GetVocabSize-1, and the two lookups are inverse to each other. Build accepts an unknown id only if it names a token. Every id that Tokenize returns is the id of its token's text or the unknown id, and lies in the vocabulary.",
  "all vocabularies, tokens, ids, unknown ids and texts",
  "Tests use small vocabularies without repeated tokens and with valid unknown ids; that the inverse fails for every repeated token, and that every negative unknown id is accepted, is a statement about all vocabularies.",
  ["model/unigram/unigram.go:92-114", "model/unigram/unigram.go:153-190", "model/unigram/unigram.go:246-301"])
p("CreateModel builds the model that the configuration describes",
  "For every configuration as in tokenizer.json: the type of the model is the one given, or the one the decoder suggests, or BPE; the vocabulary, the merges (as lines or as arrays), the unknown token, prefix, suffix, dropout, maximal word length, unknown id and flags are the ones in the configuration, with the documented defaults for absent fields; what is invalid is an error and not a panic; and what Save writes can be read again.",
  "all configuration objects with fields of the documented types, present or absent",
  "A test loads some files. That an option is ignored whatever its value, or that every configuration without a vocabulary panics, quantifies over all configurations.",
  ["pretrained/model.go:18-239", "model/bpe/bpe.go:649-679", "model/wordpiece/wordpiece.go:410-441", "model/wordlevel/wordlevel.go:248-263", "model/unigram/unigram.go:117-150", "model/unigram/unigram.go:193-243"])
p("A configuration gives the components it describes",
  "The normalizer, pre-tokenizer, post-processor and decoder created from the objects of a tokenizer.json are the ones the objects describe: every type named in the package documentation with the values of its fields (a flag that is missing is false), sequences element by element in the order of the file to any depth. An unknown type is an error, and so is an object that lacks what its type needs.",
  "for all configuration objects, all environments (which regular expressions compile, which character maps parse) and nesting depths",
  "Tests load a few published files; they cannot cover all combinations of types, fields and nesting, and they do not notice fields that are silently ignored.",
  ["pretrained/normalizer.go:27-197", "pretrained/pretokenizer.go:26-233", "pretrained/processor.go:19-228", "pretrained/decoder.go:25-195"])
p("Added tokens of a configuration get their ids",
  "After loading a tokenizer.json every token of its list of added tokens is known, with the id given there; tokens marked as special are the special ones; and texts are searched for every one of them. Loading the list does not change the ids of the model's tokens and does not fail.",
  "for all models with consistent vocabularies and all lists of added tokens",
  "Published files list their special tokens first and without gaps; a test on them does not see that the ids in the file are never read.",
  ["pretrained/added-tokens.go:7-24", "pretrained/tokenizer.go:74-81", "added-vocabulary.go:272-360", "config.go:21-29"])
p("Pre-tokenizers cut exactly where they say",
  "Digits, Punctuation, CharDelimiterSplit, WhitespaceSplit, Whitespace, BertPreTokenizer and Split (by a character, a class of characters, a word or a regular expression that never matches the empty text, inverted or not) replace every text that has no tokens yet by exactly the pieces their description gives - cut between digits and other characters, around punctuation, at white space, with matches kept, dropped, or joined to the text before or after - and leave texts with tokens as they are. The regular expressions of ByteLevel, Whitespace and Bert cut at their leftmost matches, each the one preferred at its place.",
  "for all texts and sequences of splits, all patterns and character classes, all behaviours",
  "Tests compare a few sentences; a wrong rule for one alternative of an expression or one pair of adjacent characters shows only on texts that contain it.",
  ["pretokenizer/digits.go:23-53", "pretokenizer/punctuation.go:59-75", "pretokenizer/delimiter.go:20-36", "pretokenizer/whitespace.go:22-68", "pretokenizer/bert.go:75-97", "pretokenizer/bytelevel.go:18", "normalizer/normalized.go:1191-1310"])
p("GetSplits names the place of every split",
  "GetSplits lists the texts and tokens of the splits in order. In the original referential the offsets of a split that is a part of the text delimit that part, in bytes or in characters as asked; in the normalized referential they delimit it in the texts put one after the other. It does not panic.",
  "for all pre-tokenized strings, both referentials and both units",
  "Tests look at fixed splits of short texts in bytes; the failure in characters needs a split that reaches the end of the text.",
  ["pretokenizer.go:260-293", "pretokenizer.go:311-352"])
p("Vocabulary of a trained BPE model",
  "A vocabulary learned by BpeTrainer.Train (without continuing-subword prefix and end-of-word suffix) has no text twice, texts and ids determine each other, it has no more entries than VocabSize unless the alphabet is larger, it contains every character of the training words and of the initial alphabet if the alphabet is not limited, and every other token has at least two characters and occurs in the training words at least MinFrequency times (counted with the words' counts).",
  "for all word counts, settings without prefix and suffix, orders in which workers deliver their counts, orders of iteration over sets, and choices of the queue among entries of equal count",
  "The result depends on map iteration order, goroutine arrival order and the priority queue's choice among equal counts; a test sees one run of one corpus.",
  ["model/bpe/trainer.go:200-295", "model/bpe/trainer.go:298-370", "model/bpe/trainer.go:595-884"])
p("Merges of a trained BPE model",
  "In a model returned by BpeTrainer.Train the merge of two tokens gives the token with the joined text, the ranks are 0,1,2,... without gaps or repetitions, and the model tokenizes every word made of known characters by applying the merges in order of rank until none applies.",
  "for all word counts, settings without prefix and suffix, schedules, and words made of known characters",
  "Relates every merge ever learned to the vocabulary, and training to tokenization, for all corpora.",
  ["model/bpe/trainer.go:703-884", "model/bpe/bpe.go:359-421", "model/bpe/word.go:257-401"])
p("BPE training ends and does not crash",
  "BpeTrainer.Train never indexes out of range and its loop ends for every input, so a model is returned.",
  "for all word counts (also negative), settings without prefix and suffix, schedules and queue choices",
  "Termination and absence of panics for all corpora and schedules; tests run finitely many.",
  ["model/bpe/trainer.go:595-884", "model/bpe/word.go:174-255"])
p("Special tokens of the trainer are in the trained vocabulary",
  "The special tokens given to the BPE trainer are in the vocabulary of the model that Train returns (addSpecialTokens: 'Add the provided special tokens to the initial vocabulary').",
  "for all settings, word counts and special tokens",
  "Says that no training data makes a difference; a test checks one list.",
  ["model/bpe/trainer.go:187-197", "model/bpe/trainer.go:598-619"])
p("LimitAlphabet keeps the most frequent characters",
  "With LimitAlphabet n the trained vocabulary has at most n single characters, those most frequent in the training words.",
  "for all limits, word counts and settings without prefix and suffix",
  "Holds or fails depending on the relation between the limit and the alphabet size and on the frequencies.",
  ["model/bpe/trainer.go:200-295"])
p("Pair counts of training are the frequencies",
  "Before the first merge the count of a pair of characters is the number of times the pair occurs in the training words, each counted as often as the word; so a text that occurs often enough in the training words is considered for merging, wherever its words stand.",
  "for all word counts, settings without prefix and suffix, and arrival orders of the workers",
  "The splitting of the words among workers starts only with 10000 different words, and depends on their sorted order.",
  ["model/bpe/trainer.go:372-507"])
p("Frequent words become tokens",
  "Training first merges a pair of the highest count and goes on until the vocabulary is full or no pair is frequent enough: if it ends before the vocabulary is full, every training word that occurs at least MinFrequency times is a token.",
  "for all word counts, settings without prefix and suffix, and queue choices",
  "A statement on the state in which the loop ends, for all corpora.",
  ["model/bpe/trainer.go:703-851", "model/bpe/word.go:174-255"])
p("Every token a trained model gives has a text",
  "The id that a merge of a trained model gives is in the model's vocabulary, so that tokens have texts and can be decoded.",
  "for all word counts and settings without prefix and suffix",
  "Fails only if one text is learned from two different pairs, which depends on the whole corpus.",
  ["model/bpe/trainer.go:758-780", "model/bpe/trainer.go:853-884"])
p("Prefixes in training; a trained WordPiece model tokenizes",
  "With a continuing-subword prefix the trainer puts the prefix before the tokens that continue a word, and the WordPiece model trained with prefix '##' tokenizes the training words.",
  "for all word counts, settings and printed addresses",
  "The vocabulary contains memory addresses, which differ from run to run.",
  ["model/bpe/trainer.go:320-356", "model/wordpiece/trainer.go:15-28", "model/wordpiece/trainer.go:101-106", "model/wordpiece/wordpiece.go:223-241"])
p("BERT cleaning removes control characters and turns white space into spaces",
  "With CleanText, BertNormalizer.Normalize gives the text without NUL, U+FFFD and control characters, every white-space character replaced by a space, keeps the original text, and gives one alignment within the original per byte.",
  "for every text",
  "The characters to remove may stand in any number at any place, and the loop works backwards with a counter.",
  ["normalizer/bert.go:24-57", "normalizer/bert.go:109-153"])
p("BERT separates ideographs by spaces",
  "With HandleChineseChars, BertNormalizer.Normalize puts a space before and after each CJK ideograph and changes nothing else; the ideograph and its spaces are aligned to places of the original text.",
  "for every text",
  "There are tens of thousands of ideographs, which may stand anywhere among other characters.",
  ["normalizer/bert.go:89-107", "normalizer/bert.go:155-181"])
p("The BERT normalizer is the composition of its options",
  "BertNormalizer.Normalize gives the cleaned text, with ideographs separated, lower-cased, and without accents, each step only if chosen and working on the whole result of the one before; it keeps the original text and one alignment per byte.",
  "for every choice of the four options and every text",
  "Sixteen choices and all texts; tests have single steps.",
  ["normalizer/bert.go:183-212", "normalizer/normalized.go:1147-1165"])
p("NFC, NFD, NFKC and NFKD give the text in that form",
  "The methods NFD, NFC, NFKD and NFKC of a normalized string and the normalizers of these names give a string whose text is the one that golang.org/x/text/unicode/norm gives for the form, with the same original and one alignment per byte.",
  "for every text and every normalized string obtained from it by one-to-one steps",
  "All of Unicode, and all combinations of letters and marks.",
  ["normalizer/normalized.go:866-1021", "normalizer/unicode.go:20-73"])
p("Unicode forms keep each character at its place",
  "After NFD, NFC, NFKD or NFKC, each byte is aligned to the characters of the original it comes from.",
  "for every text",
  "The alignments depend on how many characters each segment had before and after.",
  ["normalizer/normalized.go:866-1021"])
p("A chain of normalizers gives a string with the same original",
  "Normalize of any normalizer, also of nested sequences, returns a normalized string (not nil) with the original text of the one given, without a crash; a sequence gives the composition of its parts.",
  "for every normalizer, nested to any depth, and every string",
  "There are infinitely many nestings; nil results show only when another normalizer follows.",
  ["normalizer/sequence.go:16-27", "normalizer/prepend.go:13-19", "normalizer/unicode.go:20-73", "normalizer/strip.go:18-43", "normalizer/default.go:50-63"])
p("Lower-casing keeps the alignments valid",
  "After Lowercase, the string has one alignment per byte, the ones of the same characters before.",
  "for every text and every mapping of cases",
  "Only few characters change their number of bytes when lower-cased.",
  ["normalizer/normalized.go:1154-1165", "normalizer/normalizer.go:59-65"])
p("The options of NewNormalizer and NewDefaultNormalizer take effect",
  "NewNormalizer with WithBertNormalizer or WithUnicodeNormalizer gives a normalizer that does what the option says; the default normalizer lower-cases and strips as its options say.",
  "for every list of options and every text",
  "A test of the type of the result does not show what it does to texts.",
  ["normalizer/normalizer.go:15-57", "normalizer/default.go:30-80"])
p("A plain added token is found exactly at the leftmost occurrences of its content",
  "For every added token without SingleWord, LStrip and RStrip, whatever characters its content has (brackets, dots, stars, backslashes), the expression of GetPattern matches in every text exactly the leftmost non-overlapping occurrences of the content, in order, and no other text.",
  "all contents, all texts, all normalizers",
  "Contents full of characters with a meaning in regular expressions, overlapping occurrences and multi-byte neighbours are too many to try; a test sees only the tokens someone thought of.",
  ["added-vocabulary.go:125-172", "added-vocabulary.go:387-409"])
p("LStrip and RStrip take all the white space beside an added token",
  "The match of an added token with LStrip (RStrip) includes all the whitespaces on its left (right), in order to strip them out, as the documentation of SetLStrip and SetRStrip says; white space beside a token without the option stays in the text.",
  "all contents, all texts, all kinds of white space",
  "Tests use one blank; runs of white space, line ends and white space outside ASCII decide whether the option works.",
  ["added-vocabulary.go:100-112", "added-vocabulary.go:163-169"])
p("A single-word added token is found exactly as a whole word",
  "An added token with SingleWord matches its content only where no letter, mark, digit or punctuation character continues the word on either side, and there always; also for contents such as [MASK] or words in other scripts, at the start and at the end of a text.",
  "all contents, all texts",
  "The boundary depends on the class of four characters, of which two are chosen by the input; a test with English words cannot tell two notions of a word character apart.",
  ["added-vocabulary.go:93-98", "added-vocabulary.go:125-161", "added-vocabulary.go:174-179"])
p("An added token is searched in the form its flag Normalized names",
  "A token with Normalized is matched by its normalized content in the normalized text, and a token without it by its content in the text as it is.",
  "all normalizers, all contents, all texts",
  "It depends on every combination of normalizer, content and flags; the usual tokens are not changed by the usual normalizers, so tests pass either way.",
  ["added-vocabulary.go:114-119", "added-vocabulary.go:143-155", "added-vocabulary.go:318-360"])
p("Every occurrence of an added token in a text is one entry of the encoding",
  "Encoding a text that contains contents of registered added tokens gives, for each leftmost occurrence, one entry with the id of the token, its content and its place, for any number of tokens and any order of registration.",
  "all token lists, all texts, all tokenizers without a normalizer",
  "Which occurrences survive depends on the order of registration and on the order of occurrences in the text; a test fixes one of each.",
  ["added-vocabulary.go:318-360", "added-vocabulary.go:387-470", "tokenizer.go:390-448"])
p("The simple functions give what the full ones give",
  "EncodeSingle and EncodePair give the encoding of the text or of the two texts, with special tokens exactly when asked for; Tokenize gives its tokens. The entries of a pair are those of the first text and then those of the second, with type ids 0 and 1, and each entry is the piece of its own text at its offsets.",
  "all tokenizers without truncation and padding, all texts, all options",
  "Which text an offset counts in, and what type id it has, must hold for every entry of every pair of texts; tests compare a few pairs.",
  ["tokenizer.go:EncodeSingle", "tokenizer.go:EncodePair", "tokenizer.go:Tokenize", "tokenizer.go:Encode"])
p("Long texts are cut into overlapping windows, end to end",
  "With truncation to L tokens and a stride, Encode gives the first window and the further ones as overflowing parts: windows of the text of L minus the special tokens, each beginning stride tokens before the end of the previous one, each wrapped in its own special tokens; no part has more than L tokens, no token of the text is lost and there is no window more than needed. With a question and a text of which only the second is cut, every part has the whole question and a window of the text.",
  "all tokenizers with the post-processor of BERT or none, all lengths and strides that leave room for progress, all texts",
  "The number and the content of the windows depend on the length of the text, L, the stride and the processor together.",
  ["tokenizer.go:PostProcess", "util.go:TruncateEncodings", "encoding.go:Truncate", "processor/bert.go:Process"])
p("Character offsets enclose the same piece as byte offsets",
  "EncodeCharOffsets gives the same entries as Encode, and the offsets of an entry enclose, counted in characters, the piece of the text that the offsets of Encode enclose counted in bytes.",
  "all tokenizers whose normalizer keeps the original text, all texts",
  "The conversion is by a table made from the text; its last entries are used only by tokens at the end of a text, and differ from bytes only in texts with characters of more than one byte.",
  ["tokenizer.go:EncodeCharOffsets", "pretokenizer.go:IntoEncoding", "pretokenizer.go:NewBytesToCharOffsetConverter"])
p("EncodeBatch with padding gives the encodings of its inputs, in order, padded to one length",
  "With padding on the right, EncodeBatch gives one encoding per input in the order of the inputs, each of which is what Encode gives without padding, followed by pad entries up to the fixed length or the length of the longest encoding of the batch; the same holds of the overflowing parts.",
  "all tokenizers, all batches, all interleavings of the goroutines, both strategies",
  "Every input is padded on its own in its goroutine and the batch is padded again afterwards; the result must not depend on the interleaving.",
  ["tokenizer.go:EncodeBatch", "tokenizer.go:PostProcess", "util.go:PadEncodings", "encoding.go:Pad"])
p("An encoding is what the model gives for the pieces of the normalized text",
  "If no added token occurs in the text, the entries of its encoding are the tokens that the model gives for the pieces into which the pre-tokenizer cuts the normalized text, in order, and the word number of an entry is the number of its piece. If the model refuses a piece or has no token for it, the whole call fails.",
  "all normalizers that keep the alignments, all pre-tokenizers that cut, all models, all texts, both kinds of offsets",
  "Tests use a handful of whole tokenizers; that the parts are put together in this way for every choice of parts and every text, including the empty text and texts that the normalizer makes empty, can only be shown in general.",
  ["tokenizer.go:EncodeSingleSequence", "tokenizer.go:doNormalize", "tokenizer.go:doPreTokenize", "tokenizer.go:doTokenize", "pretokenizer.go:IntoEncoding"])
p("Decode of an encoding gives the text back",
  "Decode of the ids of Encode gives the text back if the vocabulary covers it: the decoder is given the tokens of the model in order, special tokens added by the post-processor being skipped, and its result is the text.",
  "all texts of words of the vocabulary; word-level and BERT tokenizers; with and without special tokens",
  "It ties Encode to Decode through pre-tokenizer, model, vocabulary and decoder for every text.",
  ["tokenizer.go:Decode", "tokenizer.go:EncodeSingle", "model/wordlevel/wordlevel.go:Tokenize", "model/wordpiece/wordpiece.go:Tokenize", "decoder/wordpiece.go:DecodeChain"])
p("Byte-level post-processing only trims offsets and numbers the sequences",
  "The byte-level post-processor returns the entries it was given, in order, with type id 0 for the first text and 1 for the second. Offsets lose the space markers at the ends of each token exactly if trimOffsets is on, and never become less than empty. No special token is added.",
  "all encodings and pairs of encodings, with their overflowing parts, both values of trimOffsets, addPrefixSpace and addSpecialTokens",
  "Which of the nine parallel lists change, and how far each offset moves, depends on every token and on the flags; tests look at two sentences.",
  ["pretokenizer/bytelevel.go:Process", "pretokenizer/bytelevel.go:processOffsets", "tokenizer.go:PrepareEncodings"])
p("The ready-made GPT-2 tokenizer gives the text back",
  "Encode of the tokenizer returned by pretrained.GPT2 never fails, its tokens spell the bytes of the text in the byte-level alphabet, and Decode of the ids gives the text back.",
  "all texts, all vocabularies that hold the byte-level alphabet and are closed under their merges, all options",
  "A round trip over all texts; the tests have plain English sentences without trailing spaces.",
  ["pretrained/gpt2.go:GPT2", "decoder/bpe.go:DecodeChain", "pretokenizer/bytelevel.go:PreTokenize", "tokenizer.go:Decode"])
p("The ready-made RoBERTa tokenizers mark the text and give it back",
  "With special tokens the tokenizers returned by pretrained.RobertaBase and RobertaBaseSquad2 encode a text to <s>, tokens that spell it, and </s>; Decode gives it back, with the special tokens around it or without them; offsets are trimmed exactly if trimOffsets is set.",
  "all texts without the special tokens in them, all byte-level vocabularies with <s> as 0 and </s> as 2, all options",
  "It ties loading, Encode, post-processing and Decode together for all texts.",
  ["pretrained/roberta.go:RobertaBase", "pretrained/roberta.go:RobertaBaseSquad2", "processor/roberta.go:DefaultRobertaProcessing", "decoder/bpe.go:DecodeChain"])
p("The ready-made BERT tokenizers load, mark the text and give its words back",
  "The tokenizers returned by pretrained.BertBaseUncased and BertLargeCasedWholeWordMaskingSquad encode a text with special tokens to [CLS], the pieces of its words, and [SEP]; Decode without special tokens gives the text back. Loading fails if the vocabulary has no [SEP] or [CLS].",
  "all vocabularies with the special tokens, all texts of words with pieces in the vocabulary that the normalizer only puts in lower case",
  "It ties loading, normalization, words, pieces, post-processing, Decode and clean-up together for all texts.",
  ["pretrained/bert.go:BertBaseUncased", "pretrained/bert.go:BertLargeCasedWholeWordMaskingSquad", "decoder/wordpiece.go:DefaultWordpieceDecoder", "decoder/wordpiece.go:Cleanup", "processor/bert.go:Process"])
p("Replacing the model of a tokenizer keeps names and ids consistent",
  "After WithModel, and after Train, TokenToId and IdToToken are inverse to each other, tokens of the new model keep the ids the model gives them, and the special tokens of the trainer are special tokens with ids that name them.",
  "all models, all tokenizers, all lists of special tokens",
  "It concerns every combination of an old state of the added vocabulary with a new model; a test tries a few.",
  ["tokenizer.go:WithModel", "tokenizer.go:Train", "added-vocabulary.go:AddSpecialTokens", "added-vocabulary.go:refreshAddedTokens"])
p("The file cache only gives out complete files",
  "CachedPath returns the path of a file in the cache whose content is the complete local file or the complete body that the server sent with status 200 for this model and file name, whatever failed during earlier calls; a local file is put into the cache.",
  "all file systems, all sequences of calls, all failures of the network and of the file system during each of them",
  "The failures come from outside and at any point; a test cannot break off every copy at every byte and then call again.",
  ["file-util.go:CachedPath", "file-util.go:downloadFile", "file-util.go:copyFile", "file-util.go:CleanCache"])
p("A WordLevel model put together with its builder knows its words and its unknown token",
  "A model built with WordLevelBuilder gives every token of the vocabulary its id and every id its token, UnkToken leaves the ids of the vocabulary as they are and gives words that are not known an id of their own, and the order in which Vocab and UnkToken are called does not matter.",
  "all vocabularies, all sequences of calls, all orders in which Go iterates over the map, all words",
  "The order of a map iteration differs from run to run, and the vocabularies are arbitrary.",
  ["model/wordlevel/wordlevel.go:UnkToken", "model/wordlevel/wordlevel.go:Vocab", "model/wordlevel/wordlevel.go:Build", "model/wordlevel/wordlevel.go:Tokenize"])
p("Replace as a decoder replaces every occurrence in the tokens",
  "Used as a decoder, Replace with a string replaces every occurrence of it in every token, from left to right without overlaps, and never fails; it makes the same text as Replace used as a normalizer; it finds the string wherever it stands in the text of the tokens; and a decoder that puts the replacement back undoes the normalizer.",
  "all patterns and replacements, all lists of tokens, all texts",
  "Where matches begin and overlap and how they lie across tokens are arbitrary.",
  ["normalizer/replace.go:DecodeChain", "normalizer/replace.go:Decode", "normalizer/pattern.go:FindMatches"])
p("The cache of the Unigram model is transparent and keeps results for five minutes",
  "Whatever calls of Tokenize run at the same time, however much time goes by and whenever the cache is cleaned, every call gives what the model gives for its text without a cache; and a result is found again for five minutes.",
  "all interleavings of any number of goroutines, all times, all vocabularies and texts",
  "Interleavings and expiry times cannot be enumerated.",
  ["model/unigram/unigram.go:Tokenize", "model/unigram/unigram.go:tokensToTokenizer"])
p("Offsets of an encoding lie in the text, between its characters",
  "Whatever normalizer and pre-tokenizer of the package are used and whatever tokens are added: both numbers of the offsets of every entry of an encoding are positions of the text, between two of its characters or at an end; for words given one by one they are positions of the word the entry names; and without a normalizer that inserts, moves or removes characters the first is not behind the second.",
  "all texts, normalizers and pre-tokenizers of the package with all settings, added tokens, and models whose offsets begin inside the piece they are given",
  "The combinations of normalizers, pre-tokenizers, settings and texts cannot be enumerated.",
  ["tokenizer.go:EncodeSingleSequence", "pretokenizer.go:IntoEncoding", "normalizer/normalized.go:ConvertOffset", "model/unigram/unigram.go:tokensToTokenizer"])
p("Offsets behind a normalizer point to the characters a token was made of",
  "If a normalizer replaces each character, or each group of characters, of a text by others, and the tokenizer then cuts the result and makes tokens of the pieces: the offsets of every entry of the encoding begin where the first of the original characters begins from which the entry's text was made, and end where the last of them ends.",
  "all texts, all normalizers given by lists of changes, pre-tokenizers that cut, models and added tokens",
  "Which characters a token was made of is a relation between the whole text, the changes and the cuts, which tests only sample.",
  ["tokenizer.go:EncodeSingleSequence", "pretokenizer.go:IntoEncoding", "normalizer/normalized.go:TransformRange", "normalizer/normalized.go:Slice"])
p("Parts and edits of a normalized string are those asked for",
  "Range and RangeOriginal give, for a range of whole characters counted on either string, the characters it covers and those they stand for in the other string; RangeOf gives the characters with the given numbers; Map and ForEach apply their function to every character and keep the alignments; Clear leaves an empty text and the original.",
  "all texts, ranges and functions on characters",
  "Texts, ranges and functions are infinitely many, and the sizes of characters matter.",
  ["normalizer/normalized.go:Range", "normalizer/normalized.go:RangeOriginal", "normalizer/normalized.go:RangeOf", "normalizer/normalized.go:Map", "normalizer/normalized.go:ForEach", "normalizer/normalized.go:Clear"])
p("BPE, WordPiece and Unigram models have the settings that their builders were given last",
  "A model built with BpeBuilder, WordPieceBuilder or UnigramBuilder has, of every setting, the value that was given last, and the documented default if none was given; Build fails only for a dropout that is no probability, files that cannot be read or an unknown id outside the vocabulary; a dropout of 0 is no dropout and a cache capacity of 0 disables the cache; ids and tokens are given back; building again gives the same model; a builder obtained from a WordPiece model has its settings.",
  "all sequences of calls on the builders, all vocabularies, merges and contents of files, all orders in which Go iterates over maps",
  "There are infinitely many sequences of calls, and tests build models in one order only.",
  ["model/bpe/bpe.go:BpeBuilder.Build", "model/bpe/bpe.go:NewBPE", "model/bpe/bpe.go:NewBpeFromFiles", "model/wordpiece/wordpiece.go:WordPieceBuilder.Build", "model/wordpiece/wordpiece.go:NewWordPieceFromFile", "model/wordpiece/wordpiece.go:NewWordPieceFromBPE"])
p("A trainer has the settings that its builder was given last",
  "A trainer built with BpeTrainerBuilder or WordPieceTrainerBuilder has, of every setting, the value that was given last, and the documented default if none was given. The methods of WordPieceTrainerBuilder, whose receivers are values, return a builder with the new setting and leave the old builder as it was; a builder obtained from a trainer has its settings.",
  "all sequences of calls, on any number of builders and builders derived from them",
  "Sequences of calls are unbounded, and that two builders share their settings shows only when both are used.",
  ["model/bpe/trainer.go:BpeTrainerBuilder.Build", "model/bpe/trainer.go:NewBpeTrainer", "model/wordpiece/trainer.go:NewWordPieceTrainerBuilder", "model/wordpiece/trainer.go:WordPieceTrainerBuilder.Build", "model/wordpiece/trainer.go:WordPieceTrainer.Builder"])
p("Added tokens and padding strategies have the options that they were given last",
  "An added token has the content and, of every option, the value given last; without options it is found wherever its content is, and it is normalized unless it is special. The setters give the token with one option changed. A padding strategy is the one of the last option, and the longest of the batch without options.",
  "all contents, all lists of options, all texts, all batches",
  "Lists of options are unbounded, and so are the texts in which a token is to be found.",
  ["added-vocabulary.go:NewAddedToken", "added-vocabulary.go:DefaultAddedToken", "added-vocabulary.go:WithSingleWord", "added-vocabulary.go:SetSingleWord", "util.go:NewPaddingStrategy", "util.go:WithFixed"])
p("The functions of util/slice give the list that they name",
  "Copy, Cut, Delete, Expand, Extend, Filter, FilterNoAllocate, Insert, InsertVec, Push, Pop, PushFront, PopFront, Reverse, ReverseLR, Shuffle, Batch, Deduplicate and Contain of package util/slice give exactly the list their name says: Cut all elements but those from start to stop, Delete all but one, Insert and InsertVec the new elements at the index, Filter the elements that meet the condition, Reverse the reverse, Shuffle a permutation, Batch consecutive parts of the given size, Deduplicate each element once in order. Indices out of range are refused with an error.",
  "for all slices (of any array, length, capacity), elements, indices and random numbers",
  "Tests use a few short slices with no spare capacity; sharing of arrays, borders of index ranges and orders of shuffles are not enumerable.",
  ["util/slice/int.go:13-224", "util/slice/string.go:13-224", "util/slice/generic.go:4-24"])
p("The functions of util/slice leave the caller's other slices as they were",
  "A function of package util/slice that returns a new slice does not change what the caller reads in the slice it gave or in any other slice of the same array; a function documented to work in place changes nothing but the elements of the slice it is given. Appending to a batch made by Batch does not change the other batches.",
  "for all heaps, slices, and all other slices of the caller",
  "Aliasing only shows when another slice shares the array and there is spare capacity, which tests with fresh literals never have.",
  ["util/slice/int.go:13-206", "util/slice/generic.go:15-24"])
p("Iterators give every element once, in order, and the helpers of package util what they name",
  "RuneIter and Iter give every element exactly once in order and then report the end however often they are asked, Reset begins again, CurrentIndex is the index of the element given last; RuneReader meets io.RuneReader. MakeRange gives the numbers of the range, MinMax the least and greatest element, ReadAllLn the lines, Zip the pairs, Repeat the item as often as said, Merge a new slice with the elements of both, CastSlice the values.",
  "for all data and all numbers of calls",
  "The number of calls and the data are unbounded; that the iterator never panics or begins again is a statement about all call sequences.",
  ["util/iterator.go:4-91", "util/rune-reader.go:31-53", "util/util.go:31-43", "util/util.go:95-107", "util/util.go:131-153", "util/util.go:171-220", "util/util.go:249-275", "util/util.go:294-305"])
p("Truncation does not move tokens",
  "If a text does not fit, then every entry of the result and of its overflowing parts has the offsets that the same entry has if the text is encoded without truncation, with every post-processor.",
  "for all tokenizers, texts, maximum lengths and strides that leave room",
  "The number of windows and what the first token of a window looks like depend on the text and the length; tests look at the first window.",
  ["tokenizer.go:588-637", "encoding.go:340-410", "pretokenizer/bytelevel.go:195-262", "processor/roberta.go:60-130"])
p("A template gives the text the same type id in every window",
  "If a text does not fit, then its entries have the type id that the template gives to the text, in the result and in every overflowing part.",
  "for all tokenizers with a template of special tokens around one text, texts, maximum lengths and strides that leave room",
  "Tests of templates do not truncate, and the type id of most templates is that of the tokenizer.",
  ["processor/template.go:504-583", "encoding.go:340-410"])
p("A template processor made with the builder is what the last calls say",
  "After any calls of NewSingle, NewPair and NewSpecialTokens on a builder, the processor has the templates and special tokens of the last call of each kind, whatever the order; a malformed template is reported; AddedTokens and DefaultAdded give the number of ids its special tokens add, so Process gives that many more entries than the sequences; with templates like `[CLS] $A [SEP]` and `[CLS] $A [SEP] $B:1 [SEP]:1` the tokens are where the templates say, for any token names and ids. Building gives a processor of its own: later calls on a builder do not change processors that were built before, nor the one the builder was made from, and a template with an unknown special token is refused.",
  "All sequences of builder calls, templates as text, lists or other values, token names, ids, earlier states of the processor, and encodings.",
  "Tests build one processor with one order of calls and one set of names; the order of calls, repeated calls and shared builders are unbounded.",
  ["processor/template.go:197-274", "processor/template.go:293-403", "processor/template.go:474-502", "processor/template.go:560-583"])
p("Parameters are a store with keys, and a clone is independent",
  "After any calls of Set, Pop, Delete and DeleteAll on a Params, Param gives for each key the value set last and not removed since (nil if there is none), Get gives the same or the default when that is nil, and Has says whether it is not nil; other Params are not changed. Copy and Select take over only the parameters that are there. Clone gives parameters that show the same values at every depth and go on showing them whatever happens to the originals afterwards.",
  "all sequences of calls, keys and values, all nestings of parameters, all later changes",
  "Histories of calls and nestings of parameters are unbounded, and independence of a clone quantifies over every later change; tests see a few.",
  ["util/param.go:15-71", "util/param.go:73-216"])
p("The cache directory is fixed at first use, and CleanCache empties the cache",
  "From the first call of CachedPath on, the cache is the directory named by GO_TOKENIZER at that time, else .cache/tokenizer in the home directory, whatever the environment becomes later. CleanCache removes every file of the cache, from this or an earlier run, and nothing else; afterwards CachedPath does not give out what was there before.",
  "all file systems, environments and sequences of calls, with all failures of the file system and the network",
  "The state is a package variable shared by all calls, and the property is about every order of calls and every content of the file system.",
  ["init.go:9-35", "file-util.go:47-51", "file-util.go:242-250"])
p("The declared special tokens, and only the declared tokens, are looked for, with the options of the first declaration",
  "After any calls of AddTokens, AddSpecialTokens and GetVocab, GetSpecialTokens lists each once exactly the non-empty contents ever given to AddSpecialTokens, which are the ones Decode leaves out. The tokens searched in texts are exactly the first token of each content given to AddSpecialTokens and each token given to AddTokens whose content was new, with the options given then; giving a token again changes nothing.",
  "all models, all sequences of calls with any tokens and options, all map orders",
  "It depends on the whole history of declarations with repeated contents and different options, and on map iteration order.",
  ["tokenizer.go:368-375", "added-vocabulary.go:272-360"])
p("The pre-tokenizer by Unicode scripts cuts exactly where the script changes",
  "The pieces the UnicodeScript pre-tokenizer gives for a text, put together, are the text; each piece begins with a character of a script other than that of the piece before and holds only characters of that script and spaces; Hiragana, Katakana and the prolonged sound mark count as Han; the common and the inherited script are scripts like the others. The result does not depend on the order in which the table of scripts is searched.",
  "all texts, all tables of scripts, all map orders",
  "The scripts are searched in the random order of a map, and texts mix any number of scripts with spaces.",
  ["pretokenizer/unicode-script.go:12-111"])
p("A tokenizer read from a file has the components that the file describes",
  "FromReader gives, for a tokenizer.json, a tokenizer whose model, normalizer, pre-tokenizer, post-processor, decoder, truncation and padding are exactly those described by the sections of the same name, absent for absent sections; every added token is known, exactly those marked special are special, and the ids of the vocabulary stay. A file one of whose sections cannot be made into a component gives an error.",
  "all decoded files",
  "Components combine freely and sections may be absent or malformed in any way; tests load a few files.",
  ["pretrained/tokenizer.go:28-100"])
p("A byte-level BPE tokenizer read from a file gives every text back",
  "For every tokenizer.json with a byte-level BPE model whose vocabulary contains the byte alphabet and the results of the merges, ByteLevel pre-tokenizer and ByteLevel decoder, and for every text: FromReader succeeds, encoding succeeds, and Decode of the ids is the text (with the space in front if add_prefix_space is set), whether special tokens are left out or not.",
  "all vocabularies, merges, added tokens, texts",
  "Vocabularies, merge tables and texts are unbounded, and the claim runs through every component from the file to the decoder.",
  ["pretrained/tokenizer.go:28-100", "tokenizer.go:515-530", "pretokenizer/bytelevel.go:96-243", "pretrained/model.go:81-146"])
p("A BERT tokenizer read from a file marks the text and gives its words back",
  "For every tokenizer.json with a WordPiece model, BertNormalizer, BertPreTokenizer, a post-processor that adds [CLS] and [SEP] (BertProcessing or a template), and a WordPiece decoder: FromReader succeeds, and every text whose words can be spelled with pieces of the vocabulary is encoded as [CLS], the pieces of its words, [SEP], with the ids of the vocabulary; Decode without special tokens gives the words (as normalized) separated by spaces, tidied up if cleanup is set.",
  "all vocabularies, flags, added tokens, texts",
  "Vocabularies and texts are unbounded, and the claim runs through every component from the file to the decoder.",
  ["pretrained/tokenizer.go:28-100", "pretrained/model.go:123-142", "processor/bert.go:36-118", "decoder/wordpiece.go:43-110"])
p("A Unigram tokenizer read from a file gives texts back",
  "For every tokenizer.json with a Unigram model, the pre-tokenizer and the decoder Metaspace with the same replacement and prefix, a post-processor that puts special tokens around the text (or none), and any added tokens: FromReader succeeds, and every text of known characters is encoded as the special tokens around tokens of the vocabulary (with their places as ids) that make up the text with the replacement for white space (and in front, with a prefix); Decode without special tokens gives the text back with white space as spaces.",
  "all vocabularies, scores, replacements, templates, added tokens, texts",
  "Vocabularies, scores and texts are unbounded, and the claim runs through every component from the file to the decoder.",
  ["pretrained/tokenizer.go:28-100", "pretrained/model.go:156-208", "pretokenizer/metaspace.go:75-149", "model/unigram/unigram.go:246-487"])
p("A word-level tokenizer read from a file gives the words of the text",
  "For every tokenizer.json with a WordLevel model, any of the covered normalizers and pre-tokenizers (also in sequence), a post-processor that puts special tokens around the text (or none), and any added tokens: FromReader succeeds; the tokens of a text are the words into which the normalized text is cut, between the special tokens, with their ids in the file or that of the unknown token; Decode without special tokens gives the known words separated by spaces, with the unknown token for the others; and if a word is unknown and the unknown token is not in the vocabulary, encoding is an error.",
  "all vocabularies, unknown tokens, normalizers, pre-tokenizers, templates, added tokens, texts",
  "Vocabularies, sequences of components and texts are unbounded, and the claim runs through every component from the file to the decoder.",
  ["pretrained/tokenizer.go:28-100", "pretrained/model.go:144-154", "model/wordlevel/wordlevel.go:142-167", "pretrained/pretokenizer.go:26-233", "pretrained/normalizer.go:27-197"])
p("A BPE tokenizer whose file writes spaces as a mark gives texts back",
  "For every tokenizer.json of the kind written for SentencePiece BPE models (a normalizer that puts a mark in front and in place of the spaces, no pre-tokenizer, a BPE model, a template, and a decoder that replaces the mark, reads byte tokens, joins and strips one space in front): FromReader succeeds; the tokens of a text cut the marked text into entries of the vocabulary, with their ids, between the special tokens of the template; Decode without special tokens gives the text back, also when the file asks for byte fallback and the text has characters without a token; and the encoding of the empty text is decoded to the empty text.",
  "all vocabularies, merges, marks, templates, added tokens, texts",
  "Vocabularies, merges and texts are unbounded; the order of the merges decides the tokens, and the claim runs through every component from the file to the decoder.",
  ["pretrained/tokenizer.go:28-100", "pretrained/model.go:80-112", "normalizer/prepend.go:13-19", "normalizer/replace.go:44-68", "decoder/byte-fallback.go:32-81", "decoder/fuse.go:25-29", "decoder/strip.go:32-65", "model/bpe/bpe.go:359-480"])
p("A byte-level BPE tokenizer from a file puts its special tokens around the text and gives the text back",
  "For every tokenizer.json with a byte-level BPE model, the pre-tokenizer and the decoder ByteLevel and a post-processor that puts special tokens around the text (RobertaProcessing, BertProcessing, TemplateProcessing, ByteLevel or a Sequence of them): FromReader succeeds; every text without added tokens is encoded, with special tokens asked for, as those tokens (with the ids in the file) around tokens whose bytes make up the text; and Decode without special tokens gives the bytes of the text back.",
  "all vocabularies, merges, added tokens, post-processors, texts",
  "Vocabularies, merges, sequences of post-processors and texts are unbounded, and the claim runs through every component from the file to the decoder.",
  ["pretrained/tokenizer.go:28-100", "pretrained/processor.go:19-228", "pretrained/added-tokens.go:9-30", "processor/roberta.go:60-196", "processor/template.go:568-583", "processor/sequence.go:26-34", "pretokenizer/bytelevel.go:207-227"])
p("The special tokens of a tokenizer file go around what the tokenizer gives without them",
  "For every tokenizer.json that FromReader accepts and all texts A and B: EncodeSingle(A, true) gives the tokens and ids of EncodeSingle(A) with the special tokens of the section post_processor (with the ids given there) before and after them, and EncodePair(A, B, true) gives the tokens and ids of EncodeSingle(A) and EncodeSingle(B), each once and in this order, with the special tokens that the post-processor prescribes before, between and after them and the type ids that it prescribes.",
  "all files, texts, pairs of texts",
  "The claim is about every combination of model, normalizer, pre-tokenizer and post-processor that a file can ask for, on all texts.",
  ["pretrained/tokenizer.go:28-100", "pretrained/processor.go:19-228", "processor/bert.go:52-133", "processor/roberta.go:60-196", "processor/template.go:568-583", "processor/sequence.go:26-34", "pretokenizer/bytelevel.go:270-294", "tokenizer.go:452-478", "tokenizer.go:588-637", "tokenizer.go:1074-1103"])
p("An added token in a text becomes one entry, and the texts around it are encoded as they are alone",
  "For a tokenizer with an added token (for example [MASK] of a BERT file) that is to be found anywhere in a text, and every text: each occurrence of the token, found from the left without overlaps, becomes one entry of the encoding with the token's id and content; the entries before, between and after the occurrences are those that EncodeSingle gives for the texts before, between and after them. Decode without special tokens leaves out the special ones and keeps the others.",
  "all texts, added tokens, files",
  "The claim is about every text with any number of occurrences at any places, next to each other or at the ends, under every normalizer, pre-tokenizer and model.",
  ["added-vocabulary.go:329-525", "pretokenizer.go:72-250", "tokenizer.go:390-478", "tokenizer.go:515-532", "pretrained/tokenizer.go:28-100"])
p("The section decoder of a tokenizer file decides what Decode gives",
  "For every tokenizer.json that FromReader accepts, every list of ids and both values of the flag: Decode leaves out the ids that stand for nothing and, with the flag, the special tokens; what the decoder described in the section decoder makes of the other tokens, joined, is the text. BPE turns the end-of-word suffix into a space except at the end; WordPiece removes the prefix of continuing pieces and puts spaces before the others, with clean-up not before marks; Metaspace turns its character into spaces and, with the prefix, removes it from the first token; ByteLevel gives the bytes; CTC removes repeats and pads and, with clean-up, turns the delimiter into a space; Replace, Fuse, Strip and ByteFallback do what their names say; a Sequence runs its decoders one after the other. Without the section the tokens are joined with spaces.",
  "all files, decoders nested to any depth, id lists",
  "The claim is about every nesting of decoders with any arguments on token lists of any length; tests run a few decoders alone.",
  ["pretrained/tokenizer.go:28-100", "pretrained/decoder.go:25-195", "decoder/sequence.go:28-41", "decoder/bpe.go:44-60", "decoder/ctc.go:85-102", "decoder/strip.go:32-65", "decoder/fuse.go:25-29", "decoder/byte-fallback.go:38-85", "decoder/wordpiece.go:42-62", "normalizer/replace.go:60-72", "pretokenizer/metaspace.go:120-149", "pretokenizer/bytelevel.go:228-261", "tokenizer.go:515-532"])
p("All the added tokens in a text are found",
  "In a text with several added tokens (found as they are, without options, not overlapping) each becomes one entry of the encoding with its id and its content, in the order of the text, and the texts between them are encoded as they are alone; for tokenizer files with the models WordLevel and WordPiece, Decode without special tokens gives the words of these texts, and the added tokens that are not special.",
  "all tokenizers, sets of added tokens, texts with any number of them in any places",
  "The order of the matches depends on how many tokens are registered, on the order of registration and on the order in the text; tests have a text or two with one order, in which the result happens to be right.",
  ["added-vocabulary.go:318-465", "added-vocabulary.go:470-500", "tokenizer.go:423-470", "pretrained/tokenizer.go:74-81"])
p("The sections truncation and padding of a tokenizer file decide the length of its encodings",
  "A tokenizer loaded from a file with a section \"truncation\" gives, for any text, the first tokens of what the same file without that section gives, as many as fit with the special tokens of the post-processor, which are around them and are never cut off; with a section \"padding\" the rest up to the length asked for is the padding token and its id, with the attention mask 0, and all before it has the attention mask 1.",
  "all tokenizer files with these sections, all texts",
  "The number of tokens kept depends on the post-processor, on whether special tokens are asked for, and on the length of the text; tests truncate encodings and pad encodings, each by itself, and not a text with the tokenizer of a file.",
  ["pretrained/truncation.go:8-34", "pretrained/padding.go:10-128", "tokenizer.go:588-637", "pretrained/tokenizer.go:28-100"])
p("An added token takes the white space beside it",
  "In a text with an added token that has the options \"lstrip\" or \"rstrip\", every occurrence becomes one entry of the encoding with the id of the token; the white space on the side that the option names is part of that entry, and the texts around are encoded as they are alone, without that white space.",
  "all tokenizers, added tokens with these options, texts with any number of occurrences and any white space around them",
  "What the expression of a token takes depends on what is before and after each occurrence and on what an earlier occurrence has taken; tests have one occurrence between two words.",
  ["added-vocabulary.go:122-172", "added-vocabulary.go:318-465", "tokenizer.go:423-470", "pretrained/tokenizer.go:74-81"])
p("A tokenizer trained on files encodes their lines",
  "After Train with a BPE trainer on text files, the tokenizer encodes every line of these files, and every text made of the same characters: each token is a part of a piece of the text, in order, and the tokens spell all pieces.",
  "all tokenizers, trainer settings, sets of files, schedules of the counting goroutines, map orders and texts",
  "The vocabulary depends on all files at once, on the order of goroutines and maps; a test trains on one small file and looks at a few words.",
  ["tokenizer.go:742-853", "tokenizer.go:862-939", "tokenizer.go:544-563", "model/bpe/trainer.go:570-884"])
p("A byte-level tokenizer trained with the byte alphabet encodes every text",
  "A tokenizer with the ByteLevel pre-tokenizer, trained with a BPE trainer that is given ByteLevel.Alphabet as initial alphabet, encodes every text, also texts with characters that no training file has, and decoding the tokens gives the text back.",
  "all trainer settings, sets of training files, schedules of the counting goroutines, map orders and texts",
  "The claim is about all texts, in particular those with characters never seen in training; a test trains on one file and encodes a few texts.",
  ["pretokenizer/bytelevel.go:157-222", "tokenizer.go:742-939", "model/bpe/trainer.go:200-295", "model/bpe/trainer.go:570-884"])
p("The special tokens of a file do not move the tokens of the text",
  "For every tokenizer.json that FromReader accepts and all texts A and B: with special tokens asked for, the tokens of a text have the same offsets as without them, also in a pair, where each text keeps the offsets that it has when it is encoded alone; the special tokens that the post-processor adds have the offsets (0, 0), and the special token mask is 1 exactly on them.",
  "all files, texts, pairs of texts",
  "The claim is about every combination of model, normalizer, pre-tokenizer and post-processor that a file can ask for, on all texts; offsets in tests are checked for one file and a few sentences.",
  ["pretrained/tokenizer.go:28-100", "pretrained/processor.go:19-228", "processor/bert.go:52-133", "processor/roberta.go:60-196", "processor/template.go:568-583", "processor/sequence.go:26-34", "pretokenizer/bytelevel.go:270-370", "tokenizer.go:588-637", "tokenizer.go:1074-1103"])
p("The offsets of a byte-level file locate its tokens in the text",
  "For a tokenizer.json with a byte-level BPE model: the offsets of every token of a text are the place of its characters in the text; if the post-processor has trim_offsets, they are this place without the spaces at its ends, so that text[start:end] is the text of the token without the spaces around it. Special tokens are at (0, 0).",
  "all vocabularies and merges with the byte alphabet, post-processors, texts",
  "The claim is about all texts with characters of one to four bytes, cut anywhere by the merges, and all combinations of the two add_prefix_space settings; tests compare the offsets of single sentences.",
  ["pretrained/tokenizer.go:28-100", "pretrained/processor.go:19-228", "pretokenizer/bytelevel.go:182-229", "pretokenizer/bytelevel.go:270-370", "processor/roberta.go:60-196", "pretokenizer.go:143-258", "tokenizer.go:588-637"])
p("The offsets of a BERT file locate its tokens in the text",
  "For a tokenizer.json with a WordPiece model and the BERT normalizer and pre-tokenizer: if the normalizer only changes the case, the offsets of every token are the bytes of its piece of the word in the text, so that text[start:end] is the token without ## up to case; an unknown token has the place of its word, and special tokens are at (0, 0).",
  "all vocabularies, normalizer settings, post-processors, texts",
  "The claim is about all texts, with any white space and punctuation between words of any lengths, and all vocabularies; tests compare the offsets of single sentences.",
  ["pretrained/tokenizer.go:28-100", "normalizer/bert.go:192-210", "pretokenizer/bert.go:1-97", "model/wordpiece/wordpiece.go:254-332", "pretokenizer.go:143-258", "processor/bert.go:1-156", "tokenizer.go:391-420"])
p("The offsets of a file that writes spaces as a mark locate its tokens in the text",
  "For a tokenizer.json of the Llama kind (BPE on the whole text, with a mark prepended and spaces written as the mark): the offsets of every token are the bytes of its piece in the text as the user gave it, so that text[start:end], with spaces as marks, is the token (the mark in front stands for no text), and special tokens are at (0, 0).",
  "all vocabularies, merges, marks, templates, texts",
  "Prepending and replacing change the number of bytes before every token; the claim is about every text and every way to cut it into pieces, while tests compare the offsets of single sentences.",
  ["pretrained/tokenizer.go:28-100", "normalizer/prepend.go:13-19", "normalizer/replace.go:44-72", "model/bpe/bpe.go:359-493", "pretokenizer.go:143-258", "processor/template.go:504-583", "tokenizer.go:391-420"])
with open("/verif/properties.jsonl","w") as f:
    for x in P: f.write(json.dumps(x)+"\n")
print(len(P))
